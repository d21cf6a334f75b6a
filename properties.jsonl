{"id": "C01", "title": "parse always returns", "statement": "For every document, parse and parse_cyclic return a result after finitely many steps; no document makes them loop forever.", "quantifier": "all documents (byte strings of any length)", "why_tests_cant": "A test samples documents; a hang shows up only on the documents nobody wrote a test for, and a hanging test cannot report divergence.", "anchors": ["src/parser/mod.rs: Loader::parse", "src/parser/mod.rs: Loader::scalar", "src/parser/base/grammar.rs: Parser::string_quoted", "src/parser/base/grammar.rs: Parser::string_plain"]}
{"id": "C02", "title": "parse never panics", "statement": "For every document, parse and parse_cyclic return Ok or Err; they never panic (no out-of-range slice, no index out of bounds, no integer underflow, no unwrap of an error, no missing tag handle, no unreachable!).", "quantifier": "all documents, all hash seeds", "why_tests_cant": "Panics hide in rare combinations of cursor moves, indentation and keys.", "anchors": ["src/parser/mod.rs: Loader", "src/parser/base/mod.rs: Parser::food", "src/parser/base/grammar.rs: Parser::tag", "src/yaml.rs: PartialEq for Yaml"]}
{"id": "C03", "title": "The cursor never leaves the document", "statement": "Starting from Parser::new(doc), after any sequence of sub-parser calls in any order, whether they matched or not, the cursor and the mark stay inside the document and the document is unchanged, so food() and text() never panic.", "quantifier": "all documents, all finite sequences of sub-parser calls", "why_tests_cant": "Number of call sequences is unbounded.", "anchors": ["src/parser/base/mod.rs: Parser", "src/parser/base/grammar.rs: Parser"]}
{"id": "C04", "title": "take_while matches exactly the longest admissible run", "statement": "take_while(f, opt) matches the longest prefix of the remaining bytes satisfying f, cut to one byte for One and to hi bytes for Range(lo,hi) (hi>0); it succeeds iff that count reaches the minimum of opt (1 for One, lo for Range and More) and then advances the cursor by exactly that count; otherwise it fails with Mismatch and puts the cursor back on the mark.", "quantifier": "all documents, cursor positions, byte predicates and options", "why_tests_cant": "Predicates and bounds are unbounded.", "anchors": ["src/parser/base/mod.rs: Parser::take_while", "src/parser/base/mod.rs: TakeOpt"]}
{"id": "C05", "title": "context restores the mark", "statement": "Whatever the closure does and whether it succeeds or fails, context leaves the mark (eaten) where it was; every grammar sub-parser (bound, int, float, gap, ind, tag, anchor, quoted/plain/block strings, directives, ...) keeps the mark, so text() after it still starts at the caller's mark.", "quantifier": "all parser states and all sub-parsers", "why_tests_cant": "Universally quantified over nested calls and failure points.", "anchors": ["src/parser/base/mod.rs: Parser::context", "src/parser/base/grammar.rs: Parser"]}
{"id": "C06", "title": "indicated_msg shows the right line and column", "statement": "For every document and every position p not past its end, indicated_msg returns 'L:C', the text of that line and a caret under column C, where L is one plus the number of newlines before p and C is one plus the distance from p back to the start of its line.", "quantifier": "all documents, all positions 0..=len", "why_tests_cant": "Unbounded documents and positions.", "anchors": ["src/indicator.rs: indicated_msg", "src/indicator.rs: indicated_msg_file"]}
{"id": "C07", "title": "indicated_msg panics exactly past the end", "statement": "indicated_msg(doc, p) panics if and only if p > doc.len().", "quantifier": "all documents, all positions", "why_tests_cant": "Boundary must hold for each length.", "anchors": ["src/indicator.rs: indicated_msg"]}
{"id": "C08", "title": "Parse errors point into the document", "statement": "Whenever parse or parse_cyclic fails with a Terminate error, its message is the indicated_msg of the given document at some position not past its end; building the error message never panics.", "quantifier": "all documents, all hash seeds", "why_tests_cant": "Error sites are reached from unboundedly many states.", "anchors": ["src/parser/base/mod.rs: Parser::err", "src/parser/mod.rs: Loader", "src/parser/error.rs: PError"]}
{"id": "C09", "title": "Node positions lie inside the document", "statement": "Every node in a successful parse result, at any depth, as well as every recorded anchor, has a position not past the end of the document.", "quantifier": "all documents, all nodes of the result", "why_tests_cant": "Depth and size of results are unbounded.", "anchors": ["src/parser/mod.rs: Loader::scalar_node", "src/node.rs: Node::pos"]}
{"id": "C10", "title": "parse leaves no alias behind", "statement": "A successful parse result contains no Alias at any depth (as key, value, item or root).", "quantifier": "all documents, all hash seeds", "why_tests_cant": "Aliases can be nested arbitrarily.", "anchors": ["src/parser/mod.rs: parse", "src/parser/mod.rs: Loader::scalar_term"]}
{"id": "C11", "title": "parse_cyclic returns one anchor table per document", "statement": "When parse_cyclic succeeds, the number of anchor tables equals the number of documents, and there is at least one document.", "quantifier": "all documents", "why_tests_cant": "Number of documents unbounded.", "anchors": ["src/parser/mod.rs: parse_cyclic", "src/parser/mod.rs: Loader::doc", "src/parser/mod.rs: Loader::get_anchors"]}
{"id": "C12", "title": "Without '*' both parsers agree", "statement": "If the text contains no '*', parse and parse_cyclic return the same nodes or the same error.", "quantifier": "all documents without the byte '*', all hash seeds", "why_tests_cant": "Relational property over all inputs.", "anchors": ["src/parser/mod.rs: parse", "src/parser/mod.rs: parse_cyclic", "src/parser/mod.rs: Loader::cyclic_mode"]}
{"id": "C13", "title": "Anchors never change once recorded", "statement": "Within a document an anchor name is bound at most once: recorded anchors are never overwritten or removed by parsing on; a second definition of the same name makes the parse fail.", "quantifier": "all documents, all points of the parse", "why_tests_cant": "History property over the whole run.", "anchors": ["src/parser/mod.rs: Loader::scalar_node", "src/parser/mod.rs: Loader::get_anchors"]}
{"id": "C14", "title": "Aliases resolve to the anchored value of the same document", "statement": "In parse, an alias *name yields exactly the data of the node recorded under name in the current document, and fails with 'anchor referenced before definition' if the current document has none, whatever earlier documents defined.", "quantifier": "all loader states and names", "why_tests_cant": "Quantifies over histories of earlier documents.", "anchors": ["src/parser/mod.rs: Loader::scalar_term", "src/parser/mod.rs: Loader::doc"]}
{"id": "C15", "title": "Plain words parse to themselves", "statement": "A plain word (letters/digits/other bytes that are no YAML indicator, starting with a letter) parses, with or without a final newline, to the string with exactly these bytes unless it is one of the listed null/boolean/float keywords.", "quantifier": "all words of any length", "why_tests_cant": "Unbounded alphabet^n.", "anchors": ["src/parser/base/grammar.rs: Parser::string_plain", "src/parser/mod.rs: Loader::scalar_term"]}
{"id": "C16", "title": "Keyword resolution is exact", "statement": "A plain scalar becomes null exactly for ~ null Null NULL, true for true True TRUE, false for false False FALSE, a float for .nan/.inf/-.inf in their three spellings, and stays a string for every other text.", "quantifier": "all plain scalar texts", "why_tests_cant": "Must hold for every other text.", "anchors": ["src/parser/mod.rs: Loader::scalar_term"]}
{"id": "C17", "title": "Decimal integers parse as integers", "statement": "A document consisting of an optional minus sign and decimal digits parses to an Int with that text, also when the text is the very end of the input.", "quantifier": "all digit strings, any length", "why_tests_cant": "Unbounded digit strings; end-of-input boundary.", "anchors": ["src/parser/base/grammar.rs: Parser::int", "src/parser/mod.rs: Loader::scalar_term"]}
{"id": "C18", "title": "Decimal floats parse as floats", "statement": "digits '.' digits parses to a Float whose text denotes the same number.", "quantifier": "all digit strings", "why_tests_cant": "Unbounded digit strings.", "anchors": ["src/parser/base/grammar.rs: Parser::float"]}
{"id": "C19", "title": "Hexadecimal and octal integers are recognised exactly", "statement": "0x followed by hexadecimal digits and 0o followed by octal digits are integers, other digits after the prefix are not, and as_int of such a parsed node succeeds with the positional value.", "quantifier": "all digit strings", "why_tests_cant": "Boundary of the digit classes for all strings.", "anchors": ["src/parser/base/grammar.rs: Parser::ascii_digit", "src/parser/base/grammar.rs: Parser::hexadecimal", "src/parser/base/grammar.rs: Parser::octal", "src/yaml.rs: to_i64"]}
{"id": "C20", "title": "Single-quoted strings round-trip", "statement": "For every string s without line breaks, parsing 's' with each quote doubled gives exactly the string s.", "quantifier": "all strings without \\n, \\r", "why_tests_cant": "All strings.", "anchors": ["src/parser/base/grammar.rs: Parser::string_quoted"]}
{"id": "C21", "title": "Double-quoted strings round-trip", "statement": "For every string s, the double-quoted text with backslash, quote and control characters escaped parses to exactly s.", "quantifier": "all strings", "why_tests_cant": "All strings.", "anchors": ["src/parser/base/grammar.rs: Parser::string_quoted", "src/parser/base/grammar.rs: Parser::escape"]}
{"id": "C22", "title": "escape inverts escaping", "statement": "Parser::escape applied to a text in which backslash, newline, carriage return, tab, backspace and form feed were escaped gives back the original text.", "quantifier": "all strings", "why_tests_cant": "All strings.", "anchors": ["src/parser/base/grammar.rs: Parser::escape"]}
{"id": "C23", "title": "Block scalars keep their lines", "statement": "As the value of a map key, a literal block (|, |-, |+) whose first and last lines have content and which is closed by a line break is the string of its lines (relative indentation and empty lines included) joined by line feeds, with one final line feed (none for |-); a folded block (>, >-, >+) joins the lines by blanks, n empty lines giving n line feeds.", "quantifier": "all keys, all lists of lines, all three chomping modes; at every nesting depth through C52", "why_tests_cant": "Unbounded lines and levels.", "anchors": ["src/parser/base/grammar.rs: Parser::string_literal", "src/parser/base/grammar.rs: Parser::string_wrapped", "src/parser/base/grammar.rs: Parser::chomp"]}
{"id": "C24", "title": "Flow sequences keep length and order", "statement": "A flow sequence of n scalars parses to the sequence of these n scalars in order, each at its position; nested flow sequences and maps parse to the tree they depict.", "quantifier": "all n, all scalars, all nestings of flow collections", "why_tests_cant": "All lengths.", "anchors": ["src/parser/mod.rs: Loader::seq_flow"]}
{"id": "C25", "title": "Block sequences keep length and order", "statement": "A block sequence of n items (n > 0), one per line, each a one-line scalar or empty, parses to the sequence of these n scalars in order (null for the empty ones), each at its position.", "quantifier": "all n, all scalars", "why_tests_cant": "All lengths.", "anchors": ["src/parser/mod.rs: Loader::seq"]}
{"id": "C26", "title": "Block maps keep their entries in order", "statement": "A block map with n lines 'key: value' (string keys) parses, if the keys are pairwise different, to the map with these n entries in document order; in any case looking up a key gives the value of the last line with that key.", "quantifier": "all n, all keys and values", "why_tests_cant": "All lengths and key coincidences.", "anchors": ["src/parser/mod.rs: Loader::map", "src/yaml.rs: Map"]}
{"id": "C27", "title": "A key without value does not swallow its sibling", "statement": "In a block map, a line 'k1:' followed by a line 'k2: v' with the same indentation gives two entries, k1 with null and k2 with v.", "quantifier": "all keys and values", "why_tests_cant": "All key/value texts.", "anchors": ["src/parser/mod.rs: Loader::map", "src/parser/base/grammar.rs: Parser::ind_define"]}
{"id": "C28", "title": "Unclosed flow collections are rejected", "statement": "A document with an unclosed [ or { is an error.", "quantifier": "all contents", "why_tests_cant": "All contents.", "anchors": ["src/parser/mod.rs: Loader::seq_flow", "src/parser/mod.rs: Loader::map_flow", "src/parser/mod.rs: Loader::scalar_term"]}
{"id": "C29", "title": "Documents are separated", "statement": "A stream of n non-empty documents separated by '---', each of them on the line after its marker or on the line of the marker, parses to exactly n nodes in order.", "quantifier": "all n, all one-line scalars; all layouts through C52", "why_tests_cant": "All n.", "anchors": ["src/parser/mod.rs: Loader::parse", "src/parser/mod.rs: Loader::doc"]}
{"id": "C30", "title": "At most one %YAML directive, version 1.1 or 1.2", "statement": "A second %YAML directive and every version other than 1.1/1.2 are errors; unknown directives are ignored.", "quantifier": "all directive lines", "why_tests_cant": "All directive texts.", "anchors": ["src/parser/base/directive.rs: Parser::directive", "src/parser/base/directive.rs: Parser::directive_yaml"]}
{"id": "C31", "title": "%TAG handles resolve to their prefix", "statement": "After a %TAG directive for handle h with prefix p, a tag !h!x denotes p followed by x; !!x denotes tag:yaml.org,2002:x by default; !<t> denotes t; an undefined handle is reported as an error.", "quantifier": "all handles, prefixes and suffixes", "why_tests_cant": "All texts.", "anchors": ["src/parser/base/directive.rs: Parser::directive_tag", "src/parser/base/grammar.rs: Parser::tag"]}
{"id": "C32", "title": "Node equality is an equivalence that ignores position and tag", "statement": "Comparing nodes is reflexive (NaN included), symmetric and transitive, never depends on position or tag, and never panics.", "quantifier": "all nodes of any depth", "why_tests_cant": "All nested nodes.", "anchors": ["src/yaml.rs: PartialEq for Yaml", "src/node.rs: PartialEq for Node"]}
{"id": "C33", "title": "Equal nodes hash equally", "statement": "Two nodes that compare equal feed the same data to the hasher, so map lookup finds every equal key.", "quantifier": "all pairs of nodes", "why_tests_cant": "All pairs of nested nodes.", "anchors": ["src/yaml.rs: Hash for Yaml", "src/node.rs: Hash for Node"]}
{"id": "C34", "title": "Maps behave as insertion-ordered dictionaries", "statement": "A map built from a list of pairs has, for every key, the last value given for it; keys are pairwise different; looking up any key gives that value or nothing, for every hash seed.", "quantifier": "all lists of pairs, all hash seeds", "why_tests_cant": "All lists, all seeds.", "anchors": ["src/yaml.rs: Map", "src/yaml.rs: FromIterator", "src/node.rs: Node::get"]}
{"id": "C35", "title": "Accessors succeed exactly on their type and report the node's position", "statement": "as_bool, as_int, as_float, as_number, as_str, as_seq, as_map, as_value, get, get_ind return the content exactly on the documented variants and otherwise Err(self.pos). as_float reads exactly the texts with an optional sign and either digits with a point and an exponent, or inf, infinity, nan in any case, and gives the nearest binary64 number; as_number of an integer is the nearest one. as_int reads exactly the texts that are, after every 0x (or, without one, every 0o) is taken out, an optional sign and at least one hexadecimal (octal, decimal) digit, with a value in i64.", "quantifier": "all nodes", "why_tests_cant": "All nodes.", "anchors": ["src/node.rs: Node::as_int", "src/node.rs: as_method!", "src/node.rs: Node::as_value", "src/node.rs: Node::get"]}
{"id": "C36", "title": "Indexing agrees with get", "statement": "node[key] returns x iff get(key) returns Ok(x) and panics otherwise; node[Ind(i)] agrees with get_ind; get_default returns the default exactly when the key is missing.", "quantifier": "all nodes, keys, indices", "why_tests_cant": "All nodes and keys.", "anchors": ["src/node.rs: Index for Node", "src/node.rs: Node::get", "src/node.rs: Node::get_default"]}
{"id": "C37", "title": "tag() is the explicit tag or the core schema tag of the type", "statement": "tag() returns the explicit tag if non-empty; otherwise the core-schema tag determined by the variant; an alias has none.", "quantifier": "all nodes", "why_tests_cant": "All nodes.", "anchors": ["src/node.rs: Node::tag"]}
{"id": "C38", "title": "Integers round-trip through nodes", "statement": "Node::from(i).as_int() == Ok(i) for every i64; values outside i64 (u64, i128, u128) yield Err with the position.", "quantifier": "all integers of all widths", "why_tests_cant": "2^64 values and more.", "anchors": ["src/yaml.rs: impl_from!", "src/yaml.rs: to_i64", "src/node.rs: Node::as_int"]}
{"id": "C39", "title": "dump always returns", "statement": "dump terminates without panic for every node.", "quantifier": "all nodes, all anchor tables", "why_tests_cant": "All nested nodes.", "anchors": ["src/dumper.rs: Dumper::dump", "src/dumper.rs: dump"]}
{"id": "C40", "title": "parse inverts dump", "statement": "Parsing the dump of a node gives back an equal node.", "quantifier": "all nodes of any depth and size", "why_tests_cant": "All nested nodes.", "anchors": ["src/dumper.rs: dump", "src/parser/mod.rs: parse"]}
{"id": "C41", "title": "dump of several nodes re-parses to as many documents", "statement": "Dumping n nodes and parsing the text gives n documents equal to the nodes.", "quantifier": "all lists of nodes", "why_tests_cant": "All lists.", "anchors": ["src/dumper.rs: dump", "src/parser/mod.rs: Loader::parse"]}
{"id": "C42", "title": "Serde round-trip", "statement": "Deserializing a value's to_node at the value's own type gives back the value exactly if its integers fit in i64, its characters are ASCII and no Some wraps a value that is written as null (other values fail, panic or change).", "quantifier": "all values of all types of the serde data model", "why_tests_cant": "All values of all types.", "anchors": ["src/serde/ser.rs: NodeSerializer", "src/serde/de.rs: Deserializer for Node"]}
{"id": "C43", "title": "Integer deserialization is range-checked", "statement": "Deserializing an integer into a narrower type fails when the value does not fit, and gives exactly the value when it fits.", "quantifier": "all integers, all target widths", "why_tests_cant": "All values.", "anchors": ["src/serde/de.rs: impl_deserializer!"]}
{"id": "C44", "title": "Deserialization errors carry the position of the offending node", "statement": "Deserializing a node with readable numbers at any type never panics; an invalid-type error carries the position of a node that was read where another kind was wanted (only a variant without its payload is reported at 0), and an alias error carries the alias's position.", "quantifier": "all nodes, all primitive target types", "why_tests_cant": "All nested nodes.", "anchors": ["src/serde/de.rs: unexpected", "src/serde/error.rs: SerdeError"]}
{"id": "C45", "title": "Nodes serialize to themselves", "statement": "to_node(node) equals node for every node without alias, and fails for a node containing an alias.", "quantifier": "all nodes", "why_tests_cant": "All nested nodes.", "anchors": ["src/serde/ser_node.rs: Serialize for Node", "src/serde/ser.rs"]}
{"id": "C46", "title": "InlineList presents a list view", "statement": "iter, into_iter, len, is_empty, is_single all agree with the list of items, and an inline item is a one-element list.", "quantifier": "all InlineLists", "why_tests_cant": "All lists.", "anchors": ["src/serde/inline_list.rs: InlineList"]}
{"id": "C47", "title": "Optional runs the callback exactly when enabled", "statement": "ok/ok_instead/ok_or/ok_or_instead call the enabled callback exactly once with the payload or the default iff the value is not Bool(false), and the disabled callback exactly when it is.", "quantifier": "all Optionals, all callbacks", "why_tests_cant": "All callbacks.", "anchors": ["src/serde/optional.rs: Optional"]}
{"id": "C48", "title": "Results do not depend on the hash seed", "statement": "parse gives the same result for every seed of the map hasher.", "quantifier": "all documents, all pairs of seeds", "why_tests_cant": "Seeds are random; a test sees one.", "anchors": ["src/yaml.rs: Hash for Yaml", "src/yaml.rs: Map", "src/parser/mod.rs: Loader::map"]}
{"id": "C49", "title": "More running time never changes a result", "statement": "The model's fuel is not observable: once parse or dump produced an outcome with some fuel, every larger fuel gives the same outcome. (Soundness of stating termination and divergence with fuel.)", "quantifier": "all documents, nodes and fuels", "why_tests_cant": "All inputs.", "anchors": ["src/parser/mod.rs: Loader", "src/dumper.rs: dump"]}
{"id": "C50", "title": "The parser cuts at character boundaries and invents no characters", "statement": "For a document that is valid UTF-8, every string a user can read from the result of parse or parse_cyclic (scalar texts, alias names, anchor names, tags) is valid UTF-8, and each of its characters is ASCII or occurs in the document; in particular no replacement character is ever introduced.", "quantifier": "all valid UTF-8 documents, all nodes at any depth of the result", "why_tests_cant": "All documents, all cut positions.", "anchors": ["src/parser/base/mod.rs: Parser::text", "src/parser/base/grammar.rs: Parser::string_plain", "src/parser/base/grammar.rs: Parser::string_quoted", "src/parser/base/grammar.rs: Parser::string_wrapped"]}
{"id": "C51", "title": "get_ind / as_seq and anchors lookup through as_anchor", "statement": "as_anchor returns the anchored node for an alias with a known name, Err(pos) for an unknown one, and the node itself otherwise.", "quantifier": "all nodes, all anchor tables", "why_tests_cant": "All tables.", "anchors": ["src/node.rs: Node::as_anchor"]}
{"id": "C52", "title": "Every regular layout is read as the tree it depicts", "statement": "A stream of documents built from block sequences, block maps, flow collections, block scalars, one-line scalars, empty items, an empty value as the last one of an indented map, aliases, anchors and tags, with any nesting, any number of documents, with directives in front, with empty lines and comment lines between the lines and comments behind '-', ':' and (except numbers) scalars, parses to exactly the depicted nodes with their exact byte positions and tags, by parse (aliases replaced by the data of the anchored node) and by parse_cyclic (aliases kept, anchor tables returned), whatever the hash seed.", "quantifier": "all streams of the layout grammar (unbounded nesting, length, number of documents)", "why_tests_cant": "Unbounded trees, gaps and texts.", "anchors": ["src/parser/mod.rs: Loader::parse", "src/parser/mod.rs: Loader::scalar", "src/parser/mod.rs: Loader::seq", "src/parser/mod.rs: Loader::map", "src/parser/base/mod.rs: Parser::gap", "src/parser/base/mod.rs: Parser::ind"]}
{"id": "C53", "title": "Stringify prints scalars", "statement": "Deserializing a scalar as Stringify and printing it gives strings verbatim, true/false for booleans, the decimal for integers within i32; integers outside of i32 are printed as the f32 nearest to them (so 2147483649 is printed as 2147483648), floats as the f32 their f64 rounds to; null, aliases and collections are rejected. A Stringify that is serialized comes back unchanged (a float if it does so as f32).", "quantifier": "all nodes", "why_tests_cant": "All nodes.", "anchors": ["src/serde/stringify.rs: Stringify"]}
{"id": "C54", "title": "Structs are read by field name", "statement": "A struct is read from a mapping whatever the order of the entries; unknown entries are ignored, a missing Option is None, any other missing field is an error.", "quantifier": "all struct types, all mappings with string keys", "why_tests_cant": "All types and mappings.", "anchors": ["src/serde/de.rs: deserialize_struct", "src/serde/de.rs: MapVisitor", "src/serde/de.rs: deserialize_ignored_any"]}
{"id": "C55", "title": "from_str inverts to_string", "statement": "A value whose collections are not empty, whose map keys (scalars or collections) hold no string written like a Boolean or number and whose texts are printable (strings and characters: one-line text as a plain scalar may have it, blanks only, numbers, true, false, or below the root newline-terminated lines; names: one-line text; floats: numbers that are read back as the same number; no NaN or infinity) is printed by to_string without hang or panic, and from_str reads the text back as exactly [value]. Integers must fit into i64, characters be ASCII, and no Some may hold a value written as null.", "quantifier": "all types of the serde data model, all printable values, both line-break conventions, all hash seeds", "why_tests_cant": "Unbounded types and values.", "anchors": ["src/serde/ser.rs: to_string", "src/serde/de.rs: from_str", "src/dumper.rs: dump", "src/parser/mod.rs: Loader"]}
{"id": "C56", "title": "Deserializing ignores positions and tags", "statement": "Two nodes that differ only in their positions and tags, at any depth, are deserialized to the same value of every type, or both are not deserialized.", "quantifier": "all types, all pairs of nodes", "why_tests_cant": "All types and nodes.", "anchors": ["src/serde/de.rs: Deserializer for Node", "src/node.rs: Node"]}
{"id": "C57", "title": "Scalars over several lines are folded", "statement": "In a plain or quoted scalar over several lines, the line breaks read as line folding has it: one break reads as a single space, n empty lines (in plain scalars also comment lines) between two lines read as n newlines, and the indentation of the further lines is dropped. For plain scalars the further lines are indented by two columns beyond the node (four behind '- '); further lines of quoted scalars may be indented in any way. This holds for lines that do not end in white space, a backslash or the characters \\\\n (blanks behind a quoted line are dropped in front of a single break, kept in front of empty lines), and a plain line that is indented further is joined by a space even behind empty lines.", "quantifier": "all lists of lines, all numbers of empty lines and blanks, LF and CRLF, as root, item, value, and for quoted scalars in every layout", "why_tests_cant": "Unbounded number of lines and texts.", "anchors": ["src/parser/base/grammar.rs: Parser::string_plain", "src/parser/base/grammar.rs: Parser::string_quoted", "src/parser/base/mod.rs: Parser::gap"]}
{"id": "C58", "title": "parse_cyclic inverts dump with anchors", "statement": "Roots given with tables of anchors, the way parse_cyclic returns them, are dumped without hang or panic, and parse_cyclic reads the text back as the same documents (data, custom tags and aliases) with, for each document, a table that binds exactly the names the dumper writes (in front of every node equal to the node of the table), each to the node it stands in front of; if every name of the tables is written, the tables come back with equal nodes. This holds for nodes printable in the sense of C40 whose aliases and anchors are named by identifiers, when no name is written twice, no key, no collection that is an entry value and no root of a later document has an anchor; without each of these conditions it is false.", "quantifier": "all lists of roots with tables, both line-break conventions, all hash seeds", "why_tests_cant": "Unbounded trees and tables.", "anchors": ["src/dumper.rs: dump", "src/dumper.rs: Dumper::dump", "src/parser/mod.rs: Loader::parse", "src/parser/mod.rs: Loader::scalar"]}
{"id": "C59", "title": "JSON texts are read as their data", "statement": "A JSON value, nested to any depth, written by the usual serializers (compact, on one line with blanks behind commas and colons, or indented by any number of blanks or tabs per level), is read by parse and parse_cyclic as one document with the same data: null, booleans, numbers (an Int without, a Float with a fraction or an exponent, with the number's text), strings, arrays in order, objects with the same names and values in order. This holds for objects with different names, strings in UTF-8 that do not end in a backslash and whose only escapes are those of one letter, and numbers without both a fraction and an exponent; a number that is the whole document must be closed by a line break. \\u escapes, numbers such as 1.5e3, blanks in front of a colon, and line breaks behind it are not read as JSON has it.", "quantifier": "all JSON values of any depth and size, all styles of white space behind brackets and commas and in front of closing brackets", "why_tests_cant": "Unbounded nesting, sizes and texts.", "anchors": ["src/parser/mod.rs: Loader::scalar", "src/parser/mod.rs: Loader::seq_flow", "src/parser/mod.rs: Loader::map_flow", "src/parser/base/grammar.rs: Parser::string_quoted", "src/parser/base/grammar.rs: Parser::string_plain", "src/parser/base/grammar.rs: Parser::float"]}
{"id": "C60", "title": "Shared nodes behave as if each had its own data", "statement": "After every history of Node::new, new_repr, set_yaml, set_repr, clone, clone_yaml, yaml().clone(), building and taking apart sequences and maps, and drops, every node, counter and data value the program owns has the value it would have if nothing were shared. In particular set_yaml and set_repr on one node keep its position and tag and change no other node, clone, container or copy that shared its data; and no history reaches freed data.", "quantifier": "all histories of operations of any length", "why_tests_cant": "Unbounded histories and sharing patterns.", "anchors": ["src/repr.rs: Repr", "src/node.rs: Node::set_yaml", "src/node.rs: Node::set_repr", "src/node.rs: Node::new_repr", "src/node.rs: Node::clone_yaml", "src/node.rs: Clone for Node", "src/yaml.rs: Clone for Yaml"]}
{"id": "C61", "title": "The strong count is the number of holders", "statement": "In every state a program reaches, the strong count behind rc_ref() of a node is the number of nodes and counters that hold the data: those the program owns, those in data it owns, and those inside other live nodes. Cloning a node makes no copy of the data and raises exactly this count by one; dropping the clone restores all counts.", "quantifier": "all histories, all nodes", "why_tests_cant": "Unbounded histories and sharing patterns.", "anchors": ["src/node.rs: Node::rc_ref", "src/node.rs: Clone for Node", "src/repr.rs: Repr"]}
{"id": "C62", "title": "Node data is freed exactly when it is out of reach", "statement": "In every state a program reaches, the data that is not yet freed is exactly the data reachable from the values the program owns; there are no leaks and no cycles. When all values are dropped, everything is freed.", "quantifier": "all histories", "why_tests_cant": "Unbounded histories and sharing patterns.", "anchors": ["src/repr.rs: Repr", "src/node.rs: Node"]}
{"id": "C63", "title": "Sharing does not change comparisons", "statement": "Comparing two nodes a program owns gives the same answer whether or not they (or nodes inside them) share data, as long as the numbers in them can be read; a clone is always equal to its original, whatever its data. For numbers outside of i64 the sharing shows: the clone is equal, the same data built anew panics.", "quantifier": "all histories, all pairs of nodes", "why_tests_cant": "Unbounded histories, sharing patterns and depth.", "anchors": ["src/node.rs: PartialEq for Node", "src/yaml.rs: PartialEq for Yaml", "src/repr.rs: Repr"]}
{"id": "C64", "title": "Keys that are collections, block scalars, anchored or aliases", "statement": "A key of a block map may be any node that may be a value, written behind ? with the : of its value on a line of its own: scalars, block sequences and maps on lines of their own, block scalars, flow collections, nodes with anchors and tags. A flow collection, an alias or a node with anchor and tag may also stand in front of the : itself. In every layout of C52 such keys give the map with these keys and values, and anchors of keys can be used behind them. Block collections that begin on the line of the ?, an alias with a blank in front of the colon, a ? key without value followed by another entry, and ? in flow maps are not read so; properties in front of the first key of a map belong to the map.", "quantifier": "all keys, values, numbers of entries and nestings of the layout grammar", "why_tests_cant": "Unbounded nesting and texts.", "anchors": ["src/parser/mod.rs: Loader::map", "src/parser/base/grammar.rs: Parser::complex_mapping"]}
{"id": "C65", "title": "Every parse error says where it happened", "statement": "Whenever parse or parse_cyclic fails, the text of the error (its Display) names the kind of error and shows the line number, the column, the line itself and a caret for a position of the document. (False of the code where an anchor or a tag of a root is not followed by a blank, a line break or one of : , [ ] { }, for example a document that is just '&a': the error then is Mismatch, 'not matched', without a place. This is the only exception, and documents without & and ! never meet it.)", "quantifier": "all documents, both entry points", "why_tests_cant": "All inputs.", "anchors": ["src/parser/error.rs: Display for PError", "src/parser/mod.rs: Loader::scalar_node", "src/parser/mod.rs: Loader::parse", "src/indicator.rs: indicated_msg"]}
{"id": "C66", "title": "The kinds of parse errors", "statement": "Every error with a place is of one of fifteen kinds (document splitter, checked version, invalid version, duplicated anchor definition, anchor referenced before definition, flow sequence item, flow map key/value/splitter, sequence item/terminator, map key/value/splitter/terminator), and a construct is blamed only if its sign occurs in the document: versions %, anchors &, aliases *, flow sequences [, flow maps {, sequences -, maps : (a key : or ?). A text without any of % & ! * [ { - : ? fails only with 'document splitter'.", "quantifier": "all documents, both entry points", "why_tests_cant": "All inputs.", "anchors": ["src/parser/mod.rs: Loader", "src/parser/base/directive.rs: Parser::directive_yaml", "src/parser/error.rs: PError"]}
{"id": "C67", "title": "Debug text shows the data", "statement": "The {:?} text of a node shows its data completely and nothing else: two nodes print alike exactly if they have the same data (kinds, scalar texts as written, items and entries in order), whatever their positions and tags; the text is self-delimiting; nodes that print alike compare alike with ==; the text is one line without control characters. {:#?} of a node is the same text, {:#?} of a value shows its data as completely. The {:?} (and {:#?}) text of a parse error tells its name and message, the text of a serde error its message and position. (Nodes that are equal may print differently: numbers print as written.)", "quantifier": "all nodes, all error values, every choice of which non-ASCII characters Rust escapes", "why_tests_cant": "All values; injectivity over an infinite domain.", "anchors": ["src/yaml.rs: Debug for Yaml", "src/node.rs: Debug for Node", "src/parser/error.rs: PError", "src/serde/error.rs: Display for SerdeError"]}
{"id": "C68", "title": "Nodes written with node!", "statement": "node!([v1, .., vn]) is the sequence of the n nodes in order, node!([v; n]) n times the same node, node!(*a) the alias; node!({k1 => v1, ..}) is a map in which looking up a key gives the value of the last pair with an equal key, and whose entries are exactly the written pairs, in order, if the keys are pairwise different. All nodes the macro makes are at position 0 and without a tag. Every node whose numbers can be read can be written as a literal that compares equal to it. (A map literal with two equal unreadable integers as keys panics.)", "quantifier": "all literals, all nodes, every seed of the map hasher", "why_tests_cant": "Unbounded nesting and numbers of items; every seed.", "anchors": ["src/lib.rs: node!", "src/node.rs: From for Node", "src/yaml.rs: FromIterator for Yaml"]}
{"id": "C69", "title": "Fields of type f32", "statement": "Reading a number into an f32 gives the f32 nearest to the number in the document, and an f32 that is serialized and read back is unchanged. (False of the code: floats are read as f64 first and then rounded to f32; where the f64 falls in the middle between two f32s, the nearest may be missed. 7.038531e-26f32 comes back as its neighbour. Integers, numbers that are f32s, and every text whose f64 is not such a midpoint are right.)", "quantifier": "all number texts, all f32 values", "why_tests_cant": "All of an infinite set of texts; the wrong case is one value among 2^32.", "anchors": ["src/serde/de.rs: deserialize_f32", "src/serde/ser.rs: serialize_f32", "src/yaml.rs: From<f32> for Yaml", "src/yaml.rs: to_f64"]}
{"id": "C70", "title": "Which texts are rejected, with which error, and where", "statement": "A document with a mistake is rejected by both entry points, with an error that names the kind of the mistake and points at its place: something else than a comment behind a quoted string or a closed flow collection (document splitter, sequence terminator, map terminator; at the end of the string or collection); a line without a colon among the entries of a map (map splitter, behind the key); a further line behind the root that is no mark (document splitter); a flow map with a key without a colon, or that ends before a key (flow map splitter); an anchor or a tag glued to what follows it (sequence item, map value, map key, flow sequence item, flow map key, flow map value; at the anchor or tag); two anchors for one node (duplicated anchor definition, behind the second). This at any depth, behind any number of items and entries that are right, behind directives and ---, and whatever comes after the mistake.", "quantifier": "all texts with such a mistake: all nestings, layouts and contents around it, everything behind it; both entry points, every seed", "why_tests_cant": "Unbounded nesting, unbounded text around the mistake.", "anchors": ["src/parser/mod.rs: Loader", "src/parser/base/scalar.rs: Parser::bound", "src/indicator.rs: indicated_msg"]}
{"id": "C71", "title": "Anchor tables are in the order of names", "statement": "The tables parse_cyclic returns list every name once, in increasing lexicographic order of the bytes, whatever the order of the definitions, and looking a name up finds exactly the entries of the table. The dumper, given such a table, writes in front of a node, wherever it stands, the smallest name whose node equals it, and no name exactly if there is none. (So of two names for equal values only the smaller one survives a dump, and the text then defines it twice and is rejected.)", "quantifier": "all documents, all tables, all nodes at all places", "why_tests_cant": "All inputs and all orders of definition.", "anchors": ["src/parser/mod.rs: Anchors", "src/parser/mod.rs: Loader::scalar_node", "src/dumper.rs: Dumper::dump"]}
{"id": "C72", "title": "What the sub-parsers for signs, white space and gaps take", "statement": "Each of the public functions sym, sym_set, sym_seq, ws, inv, nl, comment, bound, complex_mapping and gap of Parser, called with the cursor anywhere behind the mark, takes exactly a text of its language (a line break is \\r\\n, \\n\\r, \\n or \\r; a comment is blanks, # and the rest of the line; a boundary is a space with all further blanks or nothing in front of : { } [ ] , or a line break; a gap is a line break with all further blank lines, or lines of comments, and its value the number of breaks), moves the cursor over it and changes nothing else. If no such text is behind the cursor the function fails with Mismatch, changes nothing but the cursor, and puts the cursor back on the mark (nl and gap: leaves it where it was, gap behind a comment that is not followed by a line break).", "quantifier": "all documents, all states of the cursor, mark, indentation and tag tables", "why_tests_cant": "All texts behind the cursor and all states.", "anchors": ["src/parser/base/mod.rs: Parser::sym", "src/parser/base/mod.rs: Parser::sym_set", "src/parser/base/mod.rs: Parser::sym_seq", "src/parser/base/grammar.rs: Parser::ws", "src/parser/base/grammar.rs: Parser::inv", "src/parser/base/grammar.rs: Parser::nl", "src/parser/base/grammar.rs: Parser::comment", "src/parser/base/grammar.rs: Parser::bound", "src/parser/base/grammar.rs: Parser::complex_mapping", "src/parser/base/grammar.rs: Parser::gap"]}
{"id": "C73", "title": "What the sub-parsers for names, anchors, aliases and tags take", "statement": "identifier takes exactly a letter or digit and all further letters, digits and minus signs; anchor and anchor_use exactly & or * and a name, and return the name; tag exactly one of !<..>, !!name, !handle!name, !name, ! with a handle in the tag table, and returns the prefix of the handle followed by the name. Otherwise they fail with Mismatch, and if the first sign was there the cursor is left behind it; a tag with an unknown handle panics. Nothing but the cursor changes.", "quantifier": "all documents, all states, all tag tables", "why_tests_cant": "All texts behind the cursor and all tables.", "anchors": ["src/parser/base/grammar.rs: Parser::identifier", "src/parser/base/grammar.rs: Parser::anchor", "src/parser/base/grammar.rs: Parser::anchor_use", "src/parser/base/grammar.rs: Parser::tag"]}
{"id": "C74", "title": "What the sub-parsers for numbers take", "statement": "With the cursor on the mark, int takes exactly a decimal, 0o or 0x integer and the blanks behind it, in front of : { } [ ] , or a line break, and returns the integer's text; float exactly a decimal number with a point and perhaps digits behind it, and sci_float one with an exponent, followed by nothing in front of such a sign or by blanks that end in a space; float leaves out a fraction that is a single zero. Otherwise they fail with Mismatch and change nothing.", "quantifier": "all documents, all states with the cursor on the mark", "why_tests_cant": "All texts behind the cursor.", "anchors": ["src/parser/base/grammar.rs: Parser::num_prefix", "src/parser/base/grammar.rs: Parser::int", "src/parser/base/grammar.rs: Parser::octal", "src/parser/base/grammar.rs: Parser::hexadecimal", "src/parser/base/grammar.rs: Parser::float", "src/parser/base/grammar.rs: Parser::sci_float"]}
{"id": "C75", "title": "Indentation and chomping", "statement": "ind(level) takes exactly as many spaces as the steps of the levels up to it add up to, unknown steps being two; fewer are a Mismatch. Afterwards the table has exactly the steps up to the level. ind_define(level) takes in addition all white space and makes its length the step of the level; it never panics. chomp never fails, takes at most one - or + and returns the function that removes the white space at the end, keeps it, or leaves one line break.", "quantifier": "all levels, all indentation tables, all documents and states", "why_tests_cant": "All tables and levels, unbounded.", "anchors": ["src/parser/base/mod.rs: Parser::ind", "src/parser/base/grammar.rs: Parser::ind_define", "src/parser/base/grammar.rs: Parser::chomp"]}
{"id": "C76", "title": "A loader may begin anywhere", "statement": "A Loader whose parser is set to a position with pos behaves as if the document began there: it returns the documents and anchor tables it returns for the rest of the text alone, with every node position moved on by the length of the text in front; it fails with the same error, whose message is the one for the same place in the whole text; and it panics or fails to end exactly where it does for the rest alone.", "quantifier": "all texts in front, all documents, both modes, every hash seed", "why_tests_cant": "Two runs compared on all pairs of texts.", "anchors": ["src/parser/mod.rs: Loader", "src/parser/base/mod.rs: Parser::pos", "src/parser/base/mod.rs: Parser::indicator", "src/parser/base/mod.rs: Parser::err"]}
{"id": "C77", "title": "Empty lines and comment lines in front of --- make no difference", "statement": "parse and parse_cyclic return for a stream that begins with --- and stands behind empty lines and comment lines the same documents and anchors as without these lines, every position moved on by their length; an error keeps its name, its line of text and its column, and its line number grows by the number of lines in front. (Without the --- this is false of the code: behind a comment line the tag of the document is lost, its position is that of the comment, and a directive is read as a document.)", "quantifier": "all empty and comment lines, all documents behind ---, both entry points, every hash seed", "why_tests_cant": "Two runs compared on all pairs of texts.", "anchors": ["src/parser/mod.rs: Loader::parse", "src/parser/base/grammar.rs: Parser::gap", "src/indicator.rs: indicated_msg"]}
{"id": "C78", "title": "Line endings: \\r\\n", "statement": "A text without carriage returns whose lines of white space are empty reads the same if each line ends in \\r\\n instead of \\n: parse and parse_cyclic return the same documents, strings, tags and anchors (line breaks inside strings are \\n in both), every position being the one without the carriage returns; they fail with the same kind of error at the same line and column (one column more just behind a carriage return), and panic or fail to end on the same texts. (Without the condition this is false of the code: behind a line with only spaces in front of a nested collection, the line break counts as indentation, and a \\r\\n as two columns, so entries move to another collection, or the text is rejected in one form only.)", "quantifier": "all documents without carriage returns and without lines of blanks, both entry points, every hash seed", "why_tests_cant": "Two runs compared on all texts.", "anchors": ["src/parser/base/grammar.rs: Parser::nl", "src/parser/base/grammar.rs: Parser::gap", "src/parser/base/grammar.rs: Parser::ind_define", "src/parser/base/scalar.rs: Parser::string_wrapped", "src/parser/mod.rs: Loader", "src/indicator.rs: indicated_msg"]}
{"id": "C79", "title": "Line endings: \\r", "statement": "A text without carriage returns reads the same if each line ends in \\r instead of \\n: parse and parse_cyclic return the same documents and anchors at the same positions, fail with the same kind of error at the same byte, and panic or fail to end on the same texts. (The messages of errors do not count such lines: every error is in line 1.)", "quantifier": "all documents without carriage returns, both entry points, every hash seed", "why_tests_cant": "Two runs compared on all texts.", "anchors": ["src/parser/base/grammar.rs: Parser::nl", "src/parser/base/grammar.rs: Parser::gap", "src/parser/base/scalar.rs: Parser::string_wrapped", "src/parser/mod.rs: Loader", "src/indicator.rs: indicated_msg"]}
{"id": "C80", "title": "parse is parse_cyclic with the aliases resolved", "statement": "Unless parse reports the error 'anchor referenced before definition', or a call panics comparing integers that cannot be read, parse and parse_cyclic end alike on the same text: with the same error and message, with the same panic, both never, or both with the same number of documents; then each document of parse is the document of parse_cyclic in which every alias has been replaced by the data that the document's anchor table has under its name, aliases in there replaced as well, position and tag staying those of the alias; keys included, provided no alias occurs inside a mapping key. (With an alias as a key it is false: parse merges equal keys that parse_cyclic keeps apart.)", "quantifier": "all documents, every hash seed", "why_tests_cant": "Two runs in two modes compared on all texts.", "anchors": ["src/parser/mod.rs: parse", "src/parser/mod.rs: parse_cyclic", "src/parser/mod.rs: Loader::scalar_term", "src/parser/mod.rs: Loader::scalar_node"]}
{"id": "C81", "title": "Positions follow the order of the text", "statement": "In everything parse_cyclic returns, however deep, no part of a node has a position before that of the node; everything in an item of a sequence has a position before everything in the items behind it; everything in the value of a mapping entry has a position behind everything in its key and in the entries before it; and everything in a document has a position before everything in the documents behind it. The same holds of parse for texts without aliases. (With aliases it is false of parse: the data of the anchor keeps its own positions. Keys among each other are not ordered: a repeated key stands at the end with the position of its first occurrence.)", "quantifier": "all documents, every hash seed", "why_tests_cant": "An ordering of all nodes of all results.", "anchors": ["src/parser/mod.rs: parse", "src/parser/mod.rs: parse_cyclic", "src/parser/mod.rs: Loader::scalar_node", "src/parser/mod.rs: Loader::seq", "src/parser/mod.rs: Loader::map", "src/node.rs: Node::pos"]}
{"id": "C82", "title": "Results are no larger than the text", "statement": "parse_cyclic returns at most two nodes per byte of the text and one more, over all documents together; so does parse, for texts without aliases. (With aliases it is false of parse: for every k there is a text of less than (k+2)(3k+14) bytes from which parse returns a tree of more than 2^(k+1) nodes.)", "quantifier": "all documents, every hash seed", "why_tests_cant": "A bound on the size of every result; the counterexample is a family of texts.", "anchors": ["src/parser/mod.rs: parse", "src/parser/mod.rs: parse_cyclic", "src/parser/mod.rs: Loader::scalar_term", "src/parser/mod.rs: Loader::seq", "src/parser/mod.rs: Loader::map"]}
{"id": "C83", "title": "The text of a dump does not depend on positions, and its documents are dumped one by one", "statement": "dump returns the same text, or fails in the same way, for nodes and anchor tables that differ in node positions only. The text for several documents is that of all but the last, followed by a line --- and the text dump returns for the last document alone with its own anchor table, without the white space in front; dump succeeds exactly if both of these do. The text of no documents is empty, any other ends in a line break.", "quantifier": "all lists of nodes, all lists of anchor tables, both platforms", "why_tests_cant": "Pairs of runs compared on all values.", "anchors": ["src/dumper.rs: dump", "src/dumper.rs: Dumper::dump"]}
{"id": "C84", "title": "dump on Windows", "statement": "On Windows dump returns the text it returns elsewhere with each \\n replaced by \\r\\n, and panics or fails to end on the same values: for nodes whose tags, numbers, aliases and anchor names contain no line feed and none of whose strings is one line with a line feed behind it and holds `: `, ` #` or a final colon (such a string may be written as it is, with a bare line feed). If the text has no carriage returns and no lines of blanks, both texts are read back alike.", "quantifier": "all lists of nodes, all lists of anchor tables, all values of escape_debug that invent no line feed", "why_tests_cant": "The tests run on one platform; two runs compared on all values.", "anchors": ["src/dumper.rs: NL", "src/dumper.rs: dump", "src/dumper.rs: Dumper::dump"]}
{"id": "C85", "title": "Numbers and aliases stand in the text, strings are no longer than theirs", "statement": "Every integer, float and alias that parse_cyclic returns, however deep, was read from a text of the document: the digits of the integer, the fraction or the number with exponent (a float may also be one of the words for not-a-number and the infinities), the name behind a *. This text stands at the position of its node or behind it, and ends before everything behind it: the texts of an item before the items behind it, those of a key before its value, those of an entry before the values behind it, those of a document before the next one; so no two nodes are read from one text. Of strings, whose text may be folded or hold escapes, the same room is claimed: without the white space at its end, which |+ may take from further behind, a string has at most three bytes per byte from the position of its node to everything behind it (one, if the document is ASCII). The same holds of parse for texts without aliases.", "quantifier": "all documents, every hash seed", "why_tests_cant": "A statement about all nodes of all results.", "anchors": ["src/parser/mod.rs: parse", "src/parser/mod.rs: parse_cyclic", "src/parser/mod.rs: Loader::scalar_term", "src/parser/mod.rs: Loader::seq", "src/parser/mod.rs: Loader::map", "src/parser/base/mod.rs: Parser::forward", "src/parser/base/mod.rs: Parser::backward"]}
{"id": "C86", "title": "All texts of a result together are no longer than the document", "statement": "The lengths of all the integers, floats, alias names and strings that parse_cyclic returns, over all documents and however deep, keys included, the strings without the white space at their ends, add up to at most the length of an ASCII document, and to at most three times the length of any other. The same holds of parse for texts without aliases. (With aliases it is false of parse, which copies what they stand for.)", "quantifier": "all documents, every hash seed", "why_tests_cant": "A bound on the sum over all nodes of every result.", "anchors": ["src/parser/mod.rs: parse", "src/parser/mod.rs: parse_cyclic", "src/parser/mod.rs: Loader::scalar_term", "src/parser/mod.rs: Loader::seq", "src/parser/mod.rs: Loader::map", "src/parser/base/mod.rs: Parser::text"]}
