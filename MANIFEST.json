{
 "claims": [
  {
   "property": "C01",
   "status": "partial",
   "theorems": [
    "Tomlkit.C01_lossless_partial",
    "Tomlkit.C01_ordinary_partial",
    "Tomlkit.C01_ordinary_check",
    "Tomlkit.C01_toml_partial",
    "Tomlkit.C01_toml_documents_partial",
    "Tomlkit.C01_counterexample_swallowed",
    "Tomlkit.C01_counterexample_date",
    "Tomlkit.C01_counterexample_comma",
    "Tomlkit.C01_counterexample_bracket",
    "Tomlkit.C01_counterexample_order",
    "Tomlkit.C01_counterexample_return",
    "Tomlkit.C01_counterexample_spelling"
   ],
   "note": "False of the code in seven situations, each with a kernel-checked counterexample. Proved: (a) for every accepted text during whose reading none of the seven situations occurs (ghost log of the model empty), dumps(parse(s)) == s; (b) the same for every accepted text meeting a condition on its characters alone (Spec/Calm.lean; it allows dotted headers and arrays of tables, spelled alike and not torn apart). (c) the same for every accepted text built of the lines of TOML by a grammar (Spec/Kept.lean: arrays and inline tables nested in each other, dotted keys, comments, headers in any order) that only leaves out the blanks, indentations, spellings and torn groups of headers that the counterexamples show to be lost; texts of C41 are accepted. Missing: texts outside (b) and (c) that lose nothing (malformed TOML that the code accepts, groups of headers torn apart harmlessly)."
  },
  {
   "property": "C02",
   "status": "proved",
   "theorems": [
    "Tomlkit.C02_default_string_survives",
    "Tomlkit.C02_value"
   ],
   "note": ""
  },
  {
   "property": "C03",
   "status": "partial",
   "theorems": [
    "Tomlkit.C03_exact",
    "Tomlkit.C03_literal_multiline_survive_partial",
    "Tomlkit.C03_counterexample"
   ],
   "note": "False of the code for multi-line strings that start with a line break; proved exactly otherwise (iff)."
  },
  {
   "property": "C04",
   "status": "proved",
   "theorems": [
    "Tomlkit.C04_escaped_text_is_safe",
    "Tomlkit.C04_order_irrelevant"
   ],
   "note": ""
  },
  {
   "property": "C05",
   "status": "proved",
   "theorems": [
    "Tomlkit.C05_key_survives",
    "Tomlkit.C05_dotted_key_survives"
   ],
   "note": ""
  },
  {
   "property": "C06",
   "status": "proved",
   "theorems": [
    "Tomlkit.C06_integers_survive"
   ],
   "note": "CPython's limit of 4300 digits is not modelled."
  },
  {
   "property": "C07",
   "status": "proved",
   "theorems": [
    "Tomlkit.C07_based_literals",
    "Tomlkit.C07_decimal_literals",
    "Tomlkit.C08_integer_grammar"
   ],
   "note": ""
  },
  {
   "property": "C08",
   "status": "proved",
   "theorems": [
    "Tomlkit.C08_malformed_numbers_rejected",
    "Tomlkit.C08_integer_grammar"
   ],
   "note": ""
  },
  {
   "property": "C09",
   "status": "partial",
   "theorems": [
    "Tomlkit.C09_arithmetic_partial",
    "Tomlkit.C09_history",
    "Tomlkit.C09_counterexample"
   ],
   "note": "False of the code when the old text is signed and the result is negative (item(-5)+1 is written --4); exact condition proved."
  },
  {
   "property": "C28",
   "status": "partial",
   "theorems": [
    "Tomlkit.C28_unmodified_file",
    "Tomlkit.C28_write_undoes_read",
    "Tomlkit.C28_crlf_file",
    "Tomlkit.C28_lf_file_partial",
    "Tomlkit.C28_counterexample"
   ],
   "note": "CRLF and the unmodified case are proved in full; for LF files the claim is false of the code when the new text holds CR CR LF (exact condition proved)."
  },
  {
   "property": "C29",
   "status": "partial",
   "theorems": [
    "Tomlkit.C29_position_partial",
    "Tomlkit.C29_error_partial",
    "Tomlkit.C29_position_in_text",
    "Tomlkit.C29_error_located_partial",
    "Tomlkit.C29_counterexample_crlf",
    "Tomlkit.C29_counterexample_eof"
   ],
   "note": "False of the code for CRLF and other Unicode line separators and at the end of a text that ends with a line break; exact for all other texts and positions."
  },
  {
   "property": "C36",
   "status": "proved",
   "theorems": [
    "Tomlkit.C36_first_encoder",
    "Tomlkit.C36_unregister",
    "Tomlkit.C36_register"
   ],
   "note": "Encoders are opaque; the built-in conversions before the loop are not part of this claim."
  },
  {
   "property": "C26",
   "status": "proved",
   "theorems": [
    "Tomlkit.C26_date_text",
    "Tomlkit.C26_time_text",
    "Tomlkit.C26_datetime_text",
    "Tomlkit.C26_datetime_rfc",
    "Tomlkit.C26_parsed_fields",
    "Tomlkit.C26_value_fields",
    "Tomlkit.C26_api_fields"
   ],
   "note": "Exact grammar (iff) of what is accepted, with truncation of the fraction; the code also takes | for a plus sign, which the theorem states."
  },
  {
   "property": "C27",
   "status": "proved",
   "theorems": [
    "Tomlkit.C27_date_survives",
    "Tomlkit.C27_time_survives",
    "Tomlkit.C27_datetime_survives"
   ],
   "note": "Offsets of whole minutes (TOML cannot write others); time zones are their offset, the tzinfo name is not modelled."
  },
  {
   "property": "C30",
   "status": "partial",
   "theorems": [
    "Tomlkit.C30_item_plus_item",
    "Tomlkit.C30_item_plus_str_partial",
    "Tomlkit.C30_api_strings_denote",
    "Tomlkit.C30_counterexample",
    "Tomlkit.C30_literal",
    "Tomlkit.C30_multiline_items_partial",
    "Tomlkit.C30_multiline_partial",
    "Tomlkit.C30_multiline_literal_partial",
    "Tomlkit.C30_multiline_counterexamples"
   ],
   "note": "Two items: full for one-line strings. Plain str: exact condition (iff) \u2014 the code does not escape it, so the claim is false in general (witness). Multi-line strings: proved for every text of the TOML grammar when the two texts do not disturb each other where they meet (no quotes on both sides, no line break of the second at the front, no backslash at the end of the line of the first before a blank); each condition is needed (witnesses)."
  },
  {
   "property": "C38",
   "status": "proved",
   "theorems": [
    "Tomlkit.C38_basic_string_grammar",
    "Tomlkit.C38_unicode_escape"
   ],
   "note": ""
  },
  {
   "property": "C19",
   "status": "proved",
   "theorems": [
    "Tomlkit.C19_list_and_text_agree",
    "Tomlkit.C19_raises_like_list",
    "Tomlkit.C19_comment_counterexample"
   ],
   "note": "Operations: insert, append, extend, item assignment, deletion by index, pop, clear, add_line with data items, from any parsed or built array. Inserting a Comment item desynchronises the index map (witness proved); list.sort and *= are inherited from list and not part of the claim (C46_counterexample_sort)."
  },
  {
   "property": "C20",
   "status": "partial",
   "theorems": [
    "Tomlkit.C20_slice_deletion_partial",
    "Tomlkit.C20_what_the_code_does",
    "Tomlkit.C20_counterexample"
   ],
   "note": "False of the code for slices with a negative step, negative bounds or stop=0; exact description of what the code deletes is proved."
  },
  {
   "property": "C31",
   "status": "proved",
   "theorems": [
    "Tomlkit.C31_aot_is_a_list",
    "Tomlkit.C31_raises_like_list"
   ],
   "note": ""
  },
  {
   "property": "C10",
   "status": "proved",
   "theorems": [
    "Tomlkit.C10_parse_terminates",
    "Tomlkit.C10_steps_bounded"
   ],
   "note": "Loops and recursion of the parser and of Container.append are cut off by counters linear in the text (in the container); the theorems say the counters never run out. RecursionError on deep nesting is a limit of the Python process and not modelled."
  },
  {
   "property": "C11",
   "status": "partial",
   "theorems": [
    "Tomlkit.C11_failure_is_tomlkit_partial",
    "Tomlkit.C11_counterexample_overflow",
    "Tomlkit.C11_counterexample_attribute"
   ],
   "note": "False of the code: OverflowError (only with ten digits in a row) and AttributeError (indented headers) escape; documents where an out-of-order table shares an array of tables are outside the model."
  },
  {
   "property": "C37",
   "status": "proved",
   "theorems": [
    "Tomlkit.C37_unique_keys",
    "Tomlkit.C37_value_keys_once"
   ],
   "note": ""
  },
  {
   "property": "C12",
   "status": "proved",
   "theorems": [
    "Tomlkit.C12_every_container_is_a_dict",
    "Tomlkit.C12_step",
    "Tomlkit.C12_container_is_dict",
    "Tomlkit.C12_from_empty",
    "Tomlkit.C12_reads"
   ],
   "note": "Operations set/append/add/remove with plain (non-table) values and str keys on containers without tables; pop, setdefault, update and clear of MutableMapping are compositions of these and of reads."
  },
  {
   "property": "C13",
   "status": "proved",
   "theorems": [
    "Tomlkit.C13_parsed_consistent",
    "Tomlkit.C13_histories",
    "Tomlkit.C13_parse_then_edit",
    "Tomlkit.C13_lookup_is_rendered"
   ],
   "note": "Histories of set, append, add and remove at any path of a parsed or built document, with any items as values."
  },
  {
   "property": "C14",
   "status": "proved",
   "theorems": [
    "Tomlkit.C14_replace_touches_only_the_value",
    "Tomlkit.C14_solid_texts"
   ],
   "note": "Anywhere in tables, inline tables and array-of-tables elements; tables written in several places are reached through proxies and are not covered. A multi-line array is written with the indentation of the line."
  },
  {
   "property": "C15",
   "status": "partial",
   "theorems": [
    "Tomlkit.C15_delete_only_its_text_partial",
    "Tomlkit.C15_delete_from_document",
    "Tomlkit.C15_missing_key",
    "Tomlkit.C15_counterexample_header",
    "Tomlkit.C15_counterexample_parts"
   ],
   "note": "Document: full. Tables: full unless the header is written only because of the deleted key (witness). False of the code for a table written in several places (witness). Inline tables also lose a comma; what deleting from them does to the data and that the text is read back is C43."
  },
  {
   "property": "C16",
   "status": "proved",
   "theorems": [
    "Tomlkit.C16_duplicate_refused",
    "Tomlkit.C16_value_refused"
   ],
   "note": "The model of an exception has no state: that nothing was written before the raise is read off the order of the statements in container.py:160-273."
  },
  {
   "property": "C17",
   "status": "partial",
   "theorems": [
    "Tomlkit.C17_new_key_before_tables",
    "Tomlkit.C18_above_tables_partial",
    "Tomlkit.C18_inside_table_partial",
    "Tomlkit.C17_counterexample_line",
    "Tomlkit.C17_counterexample_dotted"
   ],
   "note": "Position proved for every document read by parse; the second half (re-reading) is proved for documents without dotted keys at the top and values on one line (C18_above_tables_partial) and for new keys of a table written in one place (C18_inside_table_partial), and is false of the code for texts that end without a line break inside a dotted key or an array-of-tables header, and for tables created by API dotted keys (witnesses)."
  },
  {
   "property": "C22",
   "status": "proved",
   "theorems": [
    "Tomlkit.C22_item_unwrap",
    "Tomlkit.C22_item_reads"
   ],
   "note": "for every value without None whose dicts have distinct keys (a float is an opaque text), with and without sort_keys and for every parent; == ignores the order of dict items"
  },
  {
   "property": "C25",
   "status": "partial",
   "theorems": [
    "Tomlkit.C25_sort_keys_partial",
    "Tomlkit.C25_counterexample_nested_list"
   ],
   "note": "proved for mappings with no dict inside a list that is an element of a list; false there: Array.insert converts nested lists without _sort_keys (kernel-checked counterexample)"
  },
  {
   "property": "C23",
   "status": "proved",
   "theorems": [
    "Tomlkit.C23_inline_values_survive",
    "Tomlkit.C23_item_survives"
   ],
   "note": "for every value of bool, int, float (any text float.__repr__ can write, incl. inf/nan), str, date/time/datetime with minute offsets, lists and dicts with distinct keys, as an array element, as a value of an inline table, and for item(v) whenever the result is not a table"
  },
  {
   "property": "C21",
   "status": "partial",
   "theorems": [
    "Tomlkit.C21_edited_array_partial",
    "Tomlkit.C21_parsed_array_partial",
    "Tomlkit.C21_counterexample",
    "Tomlkit.C21_counterexample_addLine"
   ],
   "note": "Proved for arrays made by the API and for arrays read from a text without comments between the elements and without blanks before commas (scalars and nested arrays of any layout as elements), any history (with reverse, and with add_line without comments, at most once without values), any values, both layouts. False of the code for parsed arrays with comments on shared lines or blanks before commas (four kernel-checked counterexamples)."
  },
  {
   "property": "C35",
   "status": "proved",
   "theorems": [
    "Tomlkit.C35_restore",
    "Tomlkit.C35_exception",
    "Tomlkit.C35_peek",
    "Tomlkit.C35_peek_unicode",
    "Tomlkit.C35_peek_crlf",
    "Tomlkit.C35_peek_table"
   ],
   "note": "source.py is modelled field by field (iterator, index, current character, marker) and the parser's abstraction is proved to be simulated by it; the look-aheads return exactly the functions of the text that the parser model uses and change nothing; the next header has the key the look-ahead saw"
  },
  {
   "property": "C24",
   "status": "partial",
   "theorems": [
    "Tomlkit.C24_dumps_parse_partial",
    "Tomlkit.C24_counterexample_confused"
   ],
   "note": "Proved for every mapping of values as in C23 nested to any depth (tables, implicit tables, arrays of tables, inline values), with and without sort_keys, except mappings with one shape (Unconfused: below the second or a later element of a list of dicts under the key a of the document, an item a that is a dict written as [[...]] headers only). There the claim is false of the code (kernel-checked counterexample)."
  },
  {
   "property": "C18",
   "status": "partial",
   "theorems": [
    "Tomlkit.C18_edits_parse_partial",
    "Tomlkit.C18_parsed_edits_parse_partial",
    "Tomlkit.C18_plain_space",
    "Tomlkit.C18_ordinary_edits_parse_partial",
    "Tomlkit.C18_above_tables_partial",
    "Tomlkit.C18_inside_table_partial",
    "Tomlkit.C18_counterexample_space"
   ],
   "note": "Proved for documents without tables, built from document() or read by parse, under any sequence of assignments, additions, deletions, comments and blank lines with values that stay on one line (scalars, arrays, inline tables): parse(dumps(doc)) succeeds and both hold the data the edits make, in order. For read documents the text must lose nothing when read (C01) and have no lone CR, and comments are added only if the last line has its end. The claim is false of the code for a no-break space behind a date (kernel-checked counterexample). For read documents with tables: the same for edits of the keys above the tables (no dotted keys at the top), the data of the tables being as before; the order of keys may differ. Also for edits of the lines of one table written in one place, with an unindented header and without dotted keys (C45): the data of that table is what the edits make. Values anywhere: C40. Missing: new tables, tables in several places, indented tables."
  },
  {
   "property": "C33",
   "status": "partial",
   "theorems": [
    "Tomlkit.C33_comments_read_back_partial",
    "Tomlkit.C33_parsed_comments_read_back_partial",
    "Tomlkit.C33_above_tables_partial",
    "Tomlkit.C33_inside_table_partial",
    "Tomlkit.C33_counterexample_space",
    "Tomlkit.C33_counterexample_open_line",
    "Tomlkit.C33_counterexample_trailing"
   ],
   "note": "comment(text) and item.comment(text) anywhere in a document without tables, built from document() or read by parse, among any other edits: all comments, old and new, are read back, with their texts (for read documents up to spaces that stood at the end of the line), in order. False of the code for texts with other white space in front of a #, for documents whose last line has no end, and exactly for lines with spaces at their end (counterexamples). For documents with tables: the comments above the tables, those of the tables being unchanged. The same for the lines of one table (C45). Missing: indented tables, tables in several places."
  },
  {
   "property": "C34",
   "status": "partial",
   "theorems": [
    "Tomlkit.C34_copy_partial",
    "Tomlkit.C34_copy_of_item",
    "Tomlkit.C34_deepcopy_parsed",
    "Tomlkit.C34_deepcopy_text_partial",
    "Tomlkit.C34_counterexample_super",
    "Tomlkit.C34_counterexample_order",
    "Tomlkit.C34_counterexample_inline",
    "Tomlkit.C34_counterexample_aot"
   ],
   "note": "copy.copy: any document, any later history at any depth: same texts, keys, reads and exceptions, unless a super table is added to the document itself (IndexError, counterexample). deepcopy of a document parsed without loss: literally the same. deepcopy of any consistent document without new inline tables or unseparated arrays of tables: same text and keys; false of the code for these and for the order of keys (counterexamples). Sharing between a copy and the original is not modelled."
  },
  {
   "property": "C32",
   "status": "proved",
   "theorems": [
    "Tomlkit.C32_merge_dicts",
    "Tomlkit.C32_unwrap",
    "Tomlkit.C32_parse_unwrap",
    "Tomlkit.C32_conflict_raises"
   ],
   "note": "merge_dicts: exact description of the result at every path. unwrap of any consistent document (parsed or edited), whenever it returns: at every path exactly what is written in some part, no two parts disagree. unwrap raises when the parts of a table conflict (example: a document that parse accepts). Two arrays of tables merged through a proxy change the document itself in the code and are outside the model."
  },
  {
   "property": "C39",
   "status": "proved",
   "theorems": [
    "Tomlkit.C39_table_for_value",
    "Tomlkit.C39_value_for_table",
    "Tomlkit.C39_counterexample_dotted",
    "Tomlkit.C39_counterexample_between"
   ],
   "note": "Any document of the shape in the statement. Without the conditions the claim is false of the code: a dotted key after k is swallowed, a table between tables is replaced by a value inside the table before (kernel-checked counterexamples)."
  },
  {
   "property": "C40",
   "status": "proved",
   "theorems": [
    "Tomlkit.C40_value_edits_read_back",
    "Tomlkit.C40_counterexample_space_tab"
   ],
   "note": "Any text accepted without loss; paths through tables, dotted keys and AoT elements that are each written in one place; new values as in C23 that stay on the line; between a replaced value and its comment spaces only or a tab first (without this a date loses the tab on re-reading, witness). Values inside inline tables and through out-of-order tables are read back unchanged but not assigned to."
  },
  {
   "property": "C41",
   "status": "partial",
   "theorems": [
    "Tomlkit.C41_values",
    "Tomlkit.C41_unambiguous",
    "Tomlkit.C41_documents_partial",
    "Tomlkit.C41_counterexample_zero_exponent"
   ],
   "note": "Values: every TOML value, including inline tables with dotted keys (Spec/Toml.lean is the grammar, Spec/Nest.lean what pairs with dotted keys denote), except floats like 0E5, which the code refuses (counterexample). Documents: lines with dotted keys in any order, any blanks, comments and line ends, indented headers, tables, implicit tables, sub-tables and arrays of tables in depth-first order; not covered: tables entered twice (also headers below a table that dotted keys made), and one shape of arrays in which the code goes wrong (C24_counterexample_confused)."
  },
  {
   "property": "C42",
   "status": "proved",
   "theorems": [
    "Tomlkit.C42_tables_below_untouched"
   ],
   "note": "For the texts named in the statement; additionally the white space between a value and its comment above the tables is spaces and tabs (a no-break space behind a date makes the claim false, C18_counterexample_space). parseLog s = .ok (doc, []) is acceptance with none of the seven situations of C01."
  },
  {
   "property": "C43",
   "status": "proved",
   "theorems": [
    "Tomlkit.C43_inline_edits_read_back",
    "Tomlkit.C43_counterexample_date"
   ],
   "note": "For inline tables without dotted keys and dates, as the statement says; with a date the claim is false (C43_counterexample_date). Between an edited value and the comment on its line there are spaces only, or spaces and tabs beginning with a tab (as in C40)."
  },
  {
   "property": "C44",
   "status": "proved",
   "theorems": [
    "Tomlkit.C44_method",
    "Tomlkit.C44_mapping",
    "Tomlkit.C44_results",
    "Tomlkit.C44_clear",
    "Tomlkit.C44_popitem",
    "Tomlkit.C44_or",
    "Tomlkit.C44_counterexample_popitem"
   ],
   "note": "The methods of collections.abc.MutableMapping are modelled from CPython (pop, popitem, clear, update, setdefault, get). Items are compared by their Python values. d | other is copy() (C34) and update; what the copy shares with d is not modelled."
  },
  {
   "property": "C45",
   "status": "proved",
   "theorems": [
    "Tomlkit.C45_only_the_lines_of_the_table"
   ],
   "note": "One-level tables: the table is an entry of the document itself. The document after the edits and the document read back are both given as the old document with one entry replaced; the data of the table is C18_inside_table_partial, its comments C33_inside_table_partial."
  },
  {
   "property": "C46",
   "status": "proved",
   "theorems": [
    "Tomlkit.C46_array_is_a_list",
    "Tomlkit.C46_array_raises",
    "Tomlkit.C46_array_results",
    "Tomlkit.C46_aot_is_a_list",
    "Tomlkit.C46_aot_results",
    "Tomlkit.C46_counterexample_reverse",
    "Tomlkit.C46_counterexample_sort",
    "Tomlkit.C46_counterexample_slice"
   ],
   "note": "The methods of collections.abc.MutableSequence are modelled from CPython, over the five methods of the class. Elements are compared as the caller sees them (booleans leave an array as Python booleans); arrays hold data items (a comment inserted as an element breaks the claim, C19_comment_counterexample). a + xs gives a plain list and is not modelled; the tables of an array of tables are compared without the header indentation that insertion may add."
  },
  {
   "property": "C47",
   "status": "proved",
   "theorems": [
    "Tomlkit.C47_value",
    "Tomlkit.C47_unwrap",
    "Tomlkit.C47_equal",
    "Tomlkit.C47_parsed",
    "Tomlkit.C47_checked",
    "Tomlkit.C47_counterexample_conflict"
   ],
   "note": "Container.value and merge_dicts are modelled; == on plain values is defined in Model/Equal.lean with any comparison of leaves. Documents with colliding parts are excluded by the statement (kernel-checked example of what happens). Arrays and tables in arrays of tables stay items in doc.value in the code; their own == is taken to be that of their values."
  }
 ]
}