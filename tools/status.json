{
 "C03": [
  "partial",
  "Cursor invariant proved for all histories (full). Calls can panic on an unknown tag handle, and err() after consume() panics (C03_consume_err_panics is the counterexample), so 'no call panics' is only partial. back(n) is in the alphabet for a caller that goes back to its mark at most; histories start anywhere in the document (new(doc).pos(p))."
 ],
 "C04": [
  "proved",
  "For every state, predicate and option except Range(lo,0)."
 ],
 "C05": [
  "proved",
  "All public sub-parsers, from every reachable state."
 ],
 "C06": [
  "proved",
  ""
 ],
 "C07": [
  "proved",
  ""
 ],
 "C16": [
  "proved",
  "At the level of the resolution of a plain scalar's text."
 ],
 "C22": [
  "proved",
  ""
 ],
 "C32": [
  "partial",
  "Equality is an equivalence on all nodes whose numbers are readable, and ignores position and tag; on unreadable numbers (Int outside i64, reachable) eq panics: C32_counterexample_panic."
 ],
 "C33": [
  "partial",
  "False in general: C33_counterexample (Int 16 vs 0x10). Proved for nodes whose equal numbers are written alike."
 ],
 "C34": [
  "partial",
  "Proved for every hash configuration when equal keys hash equally; false otherwise (C34_counterexample)."
 ],
 "C35": [
  "proved",
  ""
 ],
 "C36": [
  "proved",
  ""
 ],
 "C37": [
  "proved",
  ""
 ],
 "C38": [
  "proved",
  ""
 ],
 "C51": [
  "proved",
  ""
 ],
 "C48": [
  "partial",
  "False in general: 16 and 0x10 are equal keys with different hashes (C48_counterexample_two_notations). Proved for every document whose numbers have one notation per value, in particular every document without digits, and for every map whose equal keys hash alike."
 ],
 "C02": [
  "partial",
  "False in general: undefined tag handles panic (proved at any depth, C31_unknown_handle_panics) and so do equal Int keys outside i64. Proved: the only panics possible are those two, so parse never panics for documents without them."
 ],
 "C08": [
  "proved",
  ""
 ],
 "C09": [
  "proved",
  ""
 ],
 "C10": [
  "proved",
  ""
 ],
 "C11": [
  "proved",
  ""
 ],
 "C13": [
  "proved",
  "From every reachable loader state; and for every regular layout, with the exact report, at any depth, in block and flow collections."
 ],
 "C14": [
  "proved",
  "From every reachable loader state; and for every regular layout: it parses iff every alias follows its definition in its document, no name is defined twice and every handle is declared (block and flow collections, without complex keys)."
 ],
 "C49": [
  "proved",
  "parse, parse_cyclic and dump"
 ],
 "C15": [
  "proved",
  "For every plain line (first byte a letter) and every idle tail; words as a special case."
 ],
 "C17": [
  "partial",
  "False at the end of the input and before a comment (C17_end_of_input_is_string, C17_comment_makes_string, for all integers); proved when a line break follows, with the value of as_int."
 ],
 "C18": [
  "partial",
  "False at the end of the input (C18_end_of_input_is_string) and for a fraction with exponent; proved when a line break follows, with the exact rounded value of as_float."
 ],
 "C19": [
  "partial",
  "False for the digit a and for wrong digits (counterexamples); proved for all other hexadecimal digits and all octal numerals, with the value of as_int."
 ],
 "C20": [
  "proved",
  "All UTF-8 strings without line breaks."
 ],
 "C21": [
  "partial",
  "All UTF-8 strings that do not end in a backslash round trip; C21_counterexample_backslash proves that every string ending in a backslash makes the parser loop forever, so the two theorems together settle every string."
 ],
 "C23": [
  "proved",
  "Conditions on the block (first and last line with content, final line break, value of a map key) are part of the statement; the counterexample theorems show what happens without them."
 ],
 "C24": [
  "proved",
  ""
 ],
 "C25": [
  "proved",
  "C25_comment_item shows that a comment behind the dash is the item, not a comment."
 ],
 "C26": [
  "proved",
  "Keys are strings; C26_block_map covers all scalar keys that hash consistently."
 ],
 "C29": [
  "proved",
  "Scalars here; C52 has all layouts (a scalar on the line of a later `---` needs that the document in front does not end in a flush-left value, see C01_counterexample_stale_indent)."
 ],
 "C52": [
  "proved",
  ""
 ],
 "C27": [
  "partial",
  "FALSE of the code: C27_never refutes it for every choice of keys and values; C27_takes_siblings says what happens instead (all entries below become the value), for all entries above and below."
 ],
 "C28": [
  "partial",
  "FALSE of the code: C28_unclosed_is_null refutes it for every sequence or map left open behind an item or a value (nested to any depth): the document is null.  C28_cut_is_null: the same where the input ends in front of an item or a value (behind the bracket, a comma, or a colon).  C28_items and C28_values: in a block sequence or map the unclosed item or value is null and the others are read as usual.  The cases that are rejected as they should be: C28_key_alone, C28_key_at_end, C28_map_at_end."
 ],
 "C42": [
  "proved",
  "Exact characterisation for every type of the serde data model (f32 included; borrowed data and Node itself excluded; Node is C45), given the contract of Display for f64. An f32 survives exactly if its text, read as f64 and rounded, is the number again (C69). Counterexamples show each excluded case."
 ],
 "C43": [
  "partial",
  "FALSE of the code for integers that do not fit: they wrap silently (C43_wraps, C43_counterexample) and numerals outside i64 panic. Proved: exact result when it fits."
 ],
 "C44": [
  "proved",
  ""
 ],
 "C45": [
  "proved",
  "For nodes with readable numbers and different keys; others panic (C45_counterexample_panic)."
 ],
 "C46": [
  "proved",
  "The item type's reader on the buffered content (crate serde) is a parameter."
 ],
 "C47": [
  "proved",
  ""
 ],
 "C53": [
  "proved",
  "The text of an f32 (Display) is a parameter; f32 is modelled exactly (C69). C53_counterexample: an integer that is not printed as written."
 ],
 "C54": [
  "proved",
  ""
 ],
 "C39": [
  "partial",
  "The claim is false: dump hangs on some one-line strings and panics on an empty map at the root or in a sequence. Proved: the exact condition under which dump returns (any nodes without anchors; with anchors if all numbers are readable), and that it hangs or panics otherwise."
 ],
 "C40": [
  "partial",
  "Proved for every dumpable node of any depth (non-empty collections, keys that are one-line scalars or collections and differ, strings that are plain lines or newline-terminated text). False outside this class: counterexample theorems for keyword and digit strings, empty sequences, strings with a colon, integral floats."
 ],
 "C41": [
  "partial",
  "Proved for every non-empty list of dumpable nodes; dumping again gives the same text."
 ],
 "C01": [
  "partial",
  "False as stated: every document opening with an unclosed quote hangs, for all bodies, and so does every document whose last value stands in the column of its key, followed by `--- text` (C01_counterexample_*). Proved: documents of any size and depth are parsed in finite time by both entry points if every quote, anchor and tag that stands where a value may begin is closed, and every `---` that is not at the very beginning has its line for itself. Missing: later documents with text on the line of their `---` (C01_counterexample_stale_indent: some of these do hang)."
 ],
 "C12": [
  "proved",
  "For every document without '*', every seed and every amount of running time the two entry points have the same outcome (nodes with positions and tags, error, panic or hang)."
 ],
 "C30": [
  "partial",
  "Second versions, bad versions and unknown directives proved for all directive lists; versions such as 1.20 are not reported (C30_counterexample_version)."
 ],
 "C31": [
  "partial",
  "Resolution proved for every directive list, every tag notation; an undefined handle is a panic, not an error (proved at any depth); a tag on the line after --- is lost."
 ],
 "C50": [
  "proved",
  "For all valid UTF-8 documents, both modes, all fuel: every string of every node (and every anchor name) is valid UTF-8 over the characters of the document plus ASCII; no U+FFFD unless the document has one."
 ],
 "C55": [
  "proved",
  "For every wf type, surviving and printable value (Val.printable), any platform and seed. Counterexample theorems show that the conditions matter: '~', Some(\"null\"), empty vectors, strings with ': ', NaN."
 ],
 "C56": [
  "proved",
  "Successful results agree for every type; error positions may of course differ."
 ],
 "C57": [
  "proved",
  "All lists of lines, line breaks, blank and comment lines; root, value and item for plain scalars (and via C52 every layout: Blk.okN/okV leaves include FoldIs), every layout for quoted ones (Writes). Deviations from YAML folding are stated in the property and proved as counterexamples."
 ],
 "C58": [
  "proved",
  "Equal nodes, anchored keys, anchored collections as entry values and anchored later roots do not come back: C58_counterexample_*."
 ],
 "C59": [
  "proved",
  "Outside the stated bounds: C59_counterexample_*."
 ],
 "C60": [
  "proved",
  "Refinement between the heap with reference counts and the plain values, for every history."
 ],
 "C61": [
  "proved",
  "Count equals holders in every reachable state; clone and drop of a clone."
 ],
 "C62": [
  "proved",
  "Live iff reachable, for every reachable state; the end of all scopes frees everything."
 ],
 "C63": [
  "proved",
  "Pointer shortcut of Rc::eq against the structural comparison; the visible difference for unreadable numbers is C63_counterexample_shared."
 ],
 "C64": [
  "proved",
  "General: C52_layout with Blk.cmap (every layout). C64_any_key, C64_explicit_map, C64_sequence_key, C64_literal_key, C64_flow_key, C64_anchored_key, C64_alias_key are its readable instances; the deviations named in the property are proved as counterexamples."
 ],
 "C65": [
  "partial",
  "C65_place_partial: all documents in which anchors and tags are followed by a boundary; C65_counterexample_anchor: the full statement is false of the code (for every anchor name and every text behind it that is no boundary)."
 ],
 "C66": [
  "proved",
  "The table is ErrorFits (Proof/ErrNames.lean); an example document for each kind."
 ],
 "C67": [
  "proved",
  "For all nodes with valid UTF-8 texts and every contract-conforming escape table (EscapesWell). C67_counterexample_equal: the converse of C67_same_text_equal is false."
 ],
 "C68": [
  "proved",
  "Keys must be readable and hash alike where they are equal (as in C34); C68_counterexample_panic shows an unreadable key."
 ],
 "C69": [
  "partial",
  "Proved: integers become the nearest f32; a Float text of any value becomes the f32 nearest to that value, and an f32 whose text is nearest to it (the contract of Display for f32) survives, unless the f64 nearest to the text is exactly in the middle between two neighbouring f32s; exact texts always survive. The full statement is false: C69_counterexample_double_rounding."
 ],
 "C70": [
  "proved",
  "BadText (Props/Broken.lean) is the grammar of the mistakes, Opening what may stand in front; C70_rejected gives kind and place. The mistake is in the first document. An example for each kind."
 ],
 "C71": [
  "proved",
  "Every table of every parse; every insertion order; the name in front of every node, at every level."
 ],
 "C72": [
  "proved",
  "Exact x L s left (Props/Scan.lean) has both directions: every text of the language is taken, everything else is a mismatch that leaves the state 'left'."
 ],
 "C73": [
  "proved",
  "For tags the two directions and the panic are three theorems: C73_tag, C73_no_tag, C73_unknown_handle."
 ],
 "C74": [
  "proved",
  "Called as the loader calls them, with the cursor on the mark."
 ],
 "C75": [
  "proved",
  "TableFor says what the table of a level is, entry by entry."
 ],
 "C76": [
  "proved",
  "Both modes; values, anchor tables, errors with their messages, panics and non-termination."
 ],
 "C77": [
  "proved",
  "Both entry points; C77_message tells what becomes of the message; two counterexamples show that the --- is needed."
 ],
 "C78": [
  "proved",
  "Both entry points; C78_same_line_and_column tells what becomes of line and column; two counterexamples show that the condition on lines of blanks is needed."
 ],
 "C79": [
  "proved",
  "Both entry points, no condition but the absence of carriage returns; C79_counterexample_messages: messages put every error in line 1."
 ],
 "C80": [
  "proved",
  "For all texts, seeds and fuels. Resolved is a relation (Spec/Resolve.lean), shown to be functional (C80_one_resolved_form). The two exceptions (an undefined name, an unreadable integer) and the side condition (no alias inside a key) are needed: counterexamples are proved."
 ],
 "C81": [
  "proved",
  "for parse_cyclic; for parse only without aliases (counterexample proved); keys among each other are not ordered (counterexample proved)"
 ],
 "C82": [
  "proved",
  "for parse_cyclic; for parse only without aliases (an exponential family is proved)"
 ],
 "C83": [
  "proved",
  "every fuel, so failures included; one by one and final line break on both platforms"
 ],
 "C84": [
  "proved",
  "dumper compiled with cfg!(windows) against the one without; the excluded one-line strings are shown to differ (counterexample proved)"
 ],
 "C85": [
  "proved",
  "every fuel, both entry points (parse without the byte *); strings by their length, as folding and escapes change their text"
 ],
 "C86": [
  "proved",
  "every fuel, both entry points (parse without the byte *); counterexample for aliases in parse proved"
 ]
}
