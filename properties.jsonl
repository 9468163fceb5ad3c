{"id": "C01", "title": "Parse/dump is lossless", "statement": "For every text s that parse(s) accepts, dumps(parse(s)) == s, byte for byte: comments, indentation, whitespace, key spelling, number spelling and the order of lines all survive.", "quantifier": "every source text accepted by the parser, of any length and nesting", "why_tests_cant": "a test suite fixes finitely many documents; losslessness is claimed for the infinite set of accepted texts, and the failures sit at odd combinations (white space before a comma, a tab after a date, a re-spelled [[header]])", "anchors": ["tomlkit/parser.py: Parser.parse and everything it calls", "tomlkit/container.py: Container.as_string, append", "tomlkit/items.py: as_string of every item"]}
{"id": "C02", "title": "A default string item survives rendering", "statement": "For every Python str s, item(s) (= string(s)) renders to text that value() parses completely, and the parsed string equals s.", "quantifier": "every str, including control characters, quotes, backslashes, non-BMP characters and lone surrogates", "why_tests_cant": "the set of strings is infinite and the escaper walks a Python set in unspecified order with an index that jumps", "anchors": ["tomlkit/_utils.py: escape_string", "tomlkit/items.py: String.from_raw, String.as_string, StringType.escaped_sequences", "tomlkit/parser.py: _parse_string, _parse_escaped_char, _peek_unicode"]}
{"id": "C03", "title": "Literal and multi-line string items survive rendering", "statement": "For every str s and each of the flags literal/multiline, if string(s, literal=.., multiline=..) succeeds then its text is parsed back by value() to exactly s.", "quantifier": "every str and all four string styles", "why_tests_cant": "boundary cases (leading newline, runs of quotes at the end, carriage returns) multiply with length", "anchors": ["tomlkit/api.py: string", "tomlkit/items.py: StringType.invalid_sequences, String.from_raw", "tomlkit/parser.py: _parse_string"]}
{"id": "C04", "title": "Escaped text is single-line safe", "statement": "The text produced between the quotes of a default string item contains no control character and no double quote that is not part of an escape, so it can never break out of its line or of its quotes.", "quantifier": "every str", "why_tests_cant": "an injection needs one unescaped character anywhere in an unbounded string", "anchors": ["tomlkit/_utils.py: escape_string, CONTROL_CHARS, _compact_escapes, _unicode_escape"]}
{"id": "C05", "title": "A key renders to text that parses back to the same key", "statement": "For every str k, key(k).as_string() followed by an equals sign is parsed as exactly one key part whose name is k; for a list of names the dotted key parses back to the same list of names.", "quantifier": "every str and every non-empty list of str", "why_tests_cant": "bare/quoted decision and escaping depend on every character of an unbounded string", "anchors": ["tomlkit/items.py: SingleKey.__init__, DottedKey.__init__", "tomlkit/api.py: key", "tomlkit/parser.py: _parse_key, _parse_quoted_key, _parse_bare_key"]}
{"id": "C06", "title": "Integers survive rendering", "statement": "For every int n, item(n) renders to text that value() parses to an integer item equal to n.", "quantifier": "every Python int (unbounded)", "why_tests_cant": "unbounded integers; sign and leading-zero rules", "anchors": ["tomlkit/items.py: item, Integer", "tomlkit/parser.py: _parse_value, _parse_number"]}
{"id": "C07", "title": "Based and grouped integer literals denote their positional value", "statement": "value() of a 0x/0o/0b literal, or of a decimal literal with single underscores between digits, is the integer the digits denote in that base, and its text is kept verbatim.", "quantifier": "every digit sequence and every placement of underscores between digits", "why_tests_cant": "all lengths and placements", "anchors": ["tomlkit/parser.py: _parse_number"]}
{"id": "C08", "title": "Malformed numbers are rejected", "statement": "A decimal literal with a superfluous leading zero, an underscore not surrounded by digits, a sign before a based literal, or a trailing dot is never accepted as a number.", "quantifier": "every digit sequence with such a defect at any position", "why_tests_cant": "the defect may be at any position of an unbounded literal", "anchors": ["tomlkit/parser.py: _parse_number"]}
{"id": "C09", "title": "Integer arithmetic keeps text and value in step", "statement": "After any arithmetic operation on an integer item, the text of the new item denotes the new value: value(x.as_string()) == int(x).", "quantifier": "every integer item (with or without explicit sign) and every resulting value", "why_tests_cant": "depends on the sign spelling of the operand and the sign of an arbitrary result", "anchors": ["tomlkit/items.py: Integer.__init__, Integer._new", "tomlkit/_types.py: wrap_method"]}
{"id": "C10", "title": "The parser always terminates with a document or an exception", "statement": "For every text, parse() finishes: it returns a document or raises; no input makes it loop.", "quantifier": "every text", "why_tests_cant": "non-termination cannot be observed by a finite test and the parser backtracks and re-reads", "anchors": ["tomlkit/parser.py: all loops", "tomlkit/source.py: Source.inc, consume"]}
{"id": "C11", "title": "A parse failure is a TOMLKitError", "statement": "When parse() rejects a text it raises a subclass of TOMLKitError, so 'except TOMLKitError' is enough to handle every malformed document.", "quantifier": "every text", "why_tests_cant": "one uncaught builtin exception on any input falsifies it", "anchors": ["tomlkit/parser.py: parse, _parse_value, _parse_table", "tomlkit/container.py: append", "tomlkit/exceptions.py"]}
{"id": "C12", "title": "A container behaves like an ordered dict", "statement": "Under any sequence of item assignment, append/add, deletion, pop, setdefault, update and clear, reads (d[k], k in d, len(d), iteration order, get) agree with a plain Python dict driven by the same operations.", "quantifier": "every operation sequence on a document or table whose values are not tables, from empty or from any consistent state", "why_tests_cant": "unbounded histories; positions are cached in an index that every insertion must shift", "anchors": ["tomlkit/container.py: Container.__setitem__, append, _insert_at, _replace_at, remove, item, __iter__, __len__"]}
{"id": "C13", "title": "Index and body of a container never disagree", "statement": "After any sequence of public operations, a key lookup finds exactly the entries rendered for that key: every cached position points to an entry with that key, every rendered keyed entry is reachable, and no key is lost or duplicated.", "quantifier": "every operation sequence, tables and dotted keys included, and every parsed document", "why_tests_cant": "the index stores absolute positions that each insertion rewrites; a wrong boundary shows only for particular histories", "anchors": ["tomlkit/container.py: _map, _body, _insert_at, _raw_append, _replace_at, remove, _remove_at"]}
{"id": "C14", "title": "Replacing a value touches nothing else", "statement": "d[k] = v for an existing key k, when old and new values are both non-tables, changes only the value text of k's line: every other line, and the indentation, key spelling, separator, comment and line end of k's own line, render as before.", "quantifier": "every container, every key present in it and every replacement value", "why_tests_cant": "must hold for every surrounding document", "anchors": ["tomlkit/container.py: _replace_at, __setitem__, as_string"]}
{"id": "C15", "title": "Deleting a key deletes exactly its own text", "statement": "del d[k] removes exactly the text of k's entries from the rendering and keeps every other character, comments included; deleting a missing key raises NonExistentKey and changes nothing.", "quantifier": "every container and key", "why_tests_cant": "must hold for every surrounding document", "anchors": ["tomlkit/container.py: remove, as_string"]}
{"id": "C16", "title": "A duplicate key is refused without side effects on the data", "statement": "append/add of a key that is already present with a non-table value raises KeyAlreadyPresent; the container's keys, values and order are unchanged.", "quantifier": "every container and every key present in it", "why_tests_cant": "every container state", "anchors": ["tomlkit/container.py: append, _raw_append"]}
{"id": "C17", "title": "An added key lands before the tables", "statement": "Adding a non-table key to a container puts it before the first table of that container, so that re-reading the text attributes it to the same table.", "quantifier": "every container built by the API or edited after parsing, any number of tables", "why_tests_cant": "the insertion point depends on the whole body", "anchors": ["tomlkit/container.py: append, _get_last_index_before_table, _insert_at, _replace_at"]}
{"id": "C18", "title": "Edit, dump, parse shows the edit", "statement": "For a document of key/value lines, after any sequence of assignments and deletions, parse(dumps(doc)) succeeds and equals doc as a mapping.", "quantifier": "every sequence of edits of a document of scalar, array and inline-table values", "why_tests_cant": "unbounded histories and unbounded values", "anchors": ["tomlkit/container.py", "tomlkit/parser.py", "tomlkit/items.py"]}
{"id": "C19", "title": "Array elements and array text never disagree", "statement": "After any sequence of append, insert, extend, item assignment, deletion by index, pop and clear, the elements present in the rendered text of an array are exactly list(array), in order.", "quantifier": "every operation sequence and every index, negative ones included, on any parsed or built array", "why_tests_cant": "two parallel representations plus an index map; unbounded histories", "anchors": ["tomlkit/items.py: Array.insert, __delitem__, __setitem__, _reindex, _group_values, clear"]}
{"id": "C20", "title": "Deleting a slice of an array behaves like list", "statement": "del a[i:j:k] leaves list(a) and the rendered elements equal to what del on a plain list leaves.", "quantifier": "every array and every slice", "why_tests_cant": "all slices, negative and empty ones included", "anchors": ["tomlkit/items.py: Array.__delitem__"]}
{"id": "C21", "title": "An edited array is still an array literal", "statement": "After any sequence of insertions and deletions on an array, its text parses again to an array with the same elements (separators are neither missing nor doubled).", "quantifier": "every operation sequence from any array", "why_tests_cant": "comma placement depends on neighbours, white space and comments", "anchors": ["tomlkit/items.py: Array.insert, __delitem__, add_line, as_string", "tomlkit/parser.py: _parse_array"]}
{"id": "C22", "title": "Wrapping and unwrapping a Python value is the identity", "statement": "item(v).unwrap() == v for every value built from bool, int, str, lists and str-keyed dicts.", "quantifier": "every finite nesting", "why_tests_cant": "induction over unbounded nesting", "anchors": ["tomlkit/items.py: item, Array.unwrap, AbstractTable.unwrap, AoT.unwrap", "tomlkit/container.py: unwrap"]}
{"id": "C23", "title": "Inline values survive rendering", "statement": "Every value built from bool, int, str, lists and dicts and placed in an array or inline table renders to text that value() parses back to an equal value.", "quantifier": "every finite nesting of lists and dicts", "why_tests_cant": "unbounded nesting, all strings and keys", "anchors": ["tomlkit/items.py: item, Array.as_string, InlineTable.as_string", "tomlkit/parser.py: _parse_array, _parse_inline_table"]}
{"id": "C24", "title": "dumps of a mapping is readable back", "statement": "parse(dumps(d)).unwrap() == d for every str-keyed mapping d.", "quantifier": "every mapping of bool, int, str, list and nested dict values", "why_tests_cant": "unbounded nesting and all keys", "anchors": ["tomlkit/api.py: dumps, parse", "tomlkit/items.py: item", "tomlkit/container.py: as_string, append"]}
{"id": "C25", "title": "sort_keys output does not depend on insertion order", "statement": "dumps(d, sort_keys=True) is the same text for any two mappings with the same content, whatever the insertion order of their keys.", "quantifier": "every permutation of the items of every mapping", "why_tests_cant": "n! permutations", "anchors": ["tomlkit/items.py: item (_sort_keys)", "tomlkit/api.py: dumps"]}
{"id": "C26", "title": "Dates and times denote valid calendar values", "statement": "Whatever text value(), date(), time() or datetime() accepts as a date/time, its fields are in range (month 1-12, day within the month, hour < 24, minute < 60, second < 60, offset strictly between -24h and +24h), and fraction digits beyond six are truncated, not rounded.", "quantifier": "every text", "why_tests_cant": "all texts, all fraction lengths", "anchors": ["tomlkit/_utils.py: parse_rfc3339, RFC_3339_*"]}
{"id": "C27", "title": "Dates and times survive rendering", "statement": "For every date, time and offset/local datetime d (years 1-9999), item(d) renders to text that value() parses back to d.", "quantifier": "every calendar value, microsecond and offset", "why_tests_cant": "the domain has about 10^17 points", "anchors": ["tomlkit/items.py: item, DateTime, Date, Time", "tomlkit/_utils.py: parse_rfc3339", "tomlkit/parser.py: _parse_value"]}
{"id": "C28", "title": "TOMLFile keeps consistent line endings", "statement": "If a file uses one line-ending style throughout, read() followed by write() of the unmodified document leaves the file unchanged; and after read(), whatever document is written to a file with consistent endings, the written text uses only that style.", "quantifier": "every file content and every written document", "why_tests_cant": "any mixture at any position", "anchors": ["tomlkit/toml_file.py: TOMLFile.read, TOMLFile.write"]}
{"id": "C29", "title": "Error positions are right", "statement": "The line and column carried by a ParseError designate the character at which parsing stopped: line = 1 + number of line breaks before it, column = number of characters since the last line break.", "quantifier": "every source and every position", "why_tests_cant": "all sources and positions", "anchors": ["tomlkit/source.py: Source._to_linecol, parse_error"]}
{"id": "C30", "title": "String concatenation keeps text and value in step", "statement": "For a string item s and any str t, the text of s + t parses back to the concatenated value.", "quantifier": "every string item and every str", "why_tests_cant": "t may contain any character", "anchors": ["tomlkit/items.py: String.__add__, String._new"]}
{"id": "C31", "title": "Array-of-tables insertion behaves like list insertion", "statement": "AoT.insert(i, t) for any integer i (negative and out-of-range included) and del aot[i] keep the element list equal to what the same calls on a plain list give, and the list view and the rendered body never diverge.", "quantifier": "every operation sequence and index", "why_tests_cant": "unbounded histories and indices", "anchors": ["tomlkit/items.py: AoT.insert, __delitem__, __getitem__, __len__"]}
{"id": "C32", "title": "Merging duplicated tables is a deep dictionary merge", "statement": "When a table is split over the document, the unwrapped document holds the recursive union of the parts: every leaf of each part is present, later leaves winning only on equal paths.", "quantifier": "every pair of nested dictionaries", "why_tests_cant": "unbounded nesting", "anchors": ["tomlkit/_utils.py: merge_dicts", "tomlkit/container.py: unwrap, value"]}
{"id": "C33", "title": "A comment stays one comment line", "statement": "comment(text), and item.comment(text), for a text without line breaks render as one line that the parser reads back as one comment with the same text and no change to the data.", "quantifier": "every text without line breaks or other control characters", "why_tests_cant": "all texts", "anchors": ["tomlkit/api.py: comment", "tomlkit/items.py: Item.comment, Comment", "tomlkit/parser.py: _parse_comment_trail, _parse_item"]}
{"id": "C34", "title": "A copy is as good as the original", "statement": "copy.copy(doc) and copy.deepcopy(doc) render the same text, have the same keys, and accept the same further edits with the same results.", "quantifier": "every container and every later edit", "why_tests_cant": "all states and all later edits", "anchors": ["tomlkit/container.py: __copy__, __reduce_ex__, __setstate__", "tomlkit/items.py: _getstate methods"]}
{"id": "C35", "title": "Look-ahead does not consume", "statement": "Whether parse() looks ahead for the next header, at a unicode escape or at inf/nan does not change what is parsed next: the position after a look-ahead is the position before it.", "quantifier": "every source and position", "why_tests_cant": "all sources and positions", "anchors": ["tomlkit/source.py: _State", "tomlkit/parser.py: _peek, _peek_table, _peek_unicode"]}
{"id": "C36", "title": "Custom encoders are tried in registration order", "statement": "item(v) for a value of no built-in type returns the result of the first registered encoder that does not raise TypeError; unregistering an encoder removes exactly one registration and leaves the order of the others.", "quantifier": "every registry content and history of register/unregister calls", "why_tests_cant": "unbounded histories", "anchors": ["tomlkit/api.py: register_encoder, unregister_encoder", "tomlkit/items.py: item, CUSTOM_ENCODERS"]}
{"id": "C37", "title": "A parsed document has unique keys", "statement": "If parse(s) succeeds, no container of the document holds two values for one key, except tables written in several places; in particular two 'k = v' lines for the same key in the same table are always rejected.", "quantifier": "every accepted source text", "why_tests_cant": "duplicates may be arbitrarily far apart", "anchors": ["tomlkit/container.py: append, _raw_append", "tomlkit/parser.py: parse, _parse_table, _parse_inline_table"]}
{"id": "C38", "title": "One-line basic strings: exactly the TOML escapes", "statement": "value() accepts a one-line double-quoted text as a string of value v exactly when the text is a sequence of plain characters and escapes that denotes v; a \\u escape of four hexadecimal digits denotes their value and is refused exactly for surrogates, a \\U escape of eight is refused exactly above 0x10FFFF.", "quantifier": "every text and every value", "why_tests_cant": "every escape at every position of an unbounded string", "anchors": ["tomlkit/parser.py: _parse_string, _parse_escaped_char, _peek_unicode", "tomlkit/_utils.py: _escaped"]}
{"id": "C39", "title": "Replacing a value by a table keeps every other key where it belongs", "statement": "In a document whose tables with headers are all written after its values, doc[k] = t, for a table or array of tables t and a key k that had a value, moves k to a place where no header is before it and no plain key after it; every other entry keeps its text and order, and none is taken over by the new header. Conversely doc[k] = v for a value v, where k had a table (the first or the last of the document's tables), writes k before the first header, and every other entry keeps its text and order.", "quantifier": "every document of that shape, every key and value", "why_tests_cant": "any number of entries on either side; the new place depends on all of them", "anchors": ["tomlkit/container.py: Container._replace_at, Container._insert_at, Container._get_last_index_before_table, Container.__setitem__"]}
{"id": "C40", "title": "Values replaced anywhere in a document are read back", "statement": "doc = parse(s) for any text s that parse keeps exactly (C01); then any number of assignments doc[..][..][k] = v, each replacing a value by a value, in the document, in tables, under dotted keys, in elements of arrays of tables. No assignment raises, parse(dumps(doc)) succeeds and gives the same data; what was assigned last to a place is found at that place, and every value not assigned is there, written as before, with its comment.", "quantifier": "every accepted text without loss, every path, every sequence of replacements", "why_tests_cant": "what the new value's text does to everything that is read after it depends on the whole document; sequences are unbounded", "anchors": ["tomlkit/container.py: Container.__setitem__, Container._replace, Container._replace_at", "tomlkit/items.py: AbstractTable.__setitem__", "tomlkit/parser.py: Parser.parse, _parse_table, _parse_key_value"]}
{"id": "C41", "title": "The texts of TOML are accepted and mean what TOML says", "statement": "value(s) accepts every text s that is a TOML 1.0 value (strings of the four kinds with all escapes, integers in four bases, floats, booleans, dates and times, arrays over several lines with comments, inline tables), and unwrap() of the result is the Python value the text denotes; parse(s) accepts every TOML document and unwrap() is the dictionary it denotes, with the keys in the order of the text.", "quantifier": "every text of the grammar and its denotation", "why_tests_cant": "values nest without bound, and every combination of spellings, blanks, comments and line ends is allowed everywhere", "anchors": ["tomlkit/parser.py: Parser.parse, _parse_item, _parse_key, _parse_key_value, _parse_value, _parse_string, _parse_escaped_char, _parse_number, _parse_array, _parse_inline_table, _parse_table, _parse_aot", "tomlkit/_utils.py: parse_rfc3339", "tomlkit/container.py: Container.append"]}
{"id": "C42", "title": "Edits above the tables leave the tables untouched", "statement": "doc = parse(s) for a text s that parse keeps exactly (C01), without lone carriage returns and without dotted keys at the top; then any sequence of doc[k] = v, doc.add(k, v), del doc[k] and doc.item(k).comment(text) for keys k that are not names of tables and values that stay on one line. dumps(doc) is new lines followed by exactly the characters of s from its first table on; parse(dumps(doc)) succeeds, its keys are the keys of the lines after the edits and the names of the tables, and every table in it has the same entries, comments and data as in parse(s).", "quantifier": "every accepted text without loss, every sequence of edits", "why_tests_cant": "the texts, the number of tables and the sequences of edits are unbounded; every edit moves all the positions after it", "anchors": ["tomlkit/container.py: Container.append, Container._insert_at, Container._get_last_index_before_table, Container.__setitem__, Container.remove", "tomlkit/items.py: Item.comment", "tomlkit/parser.py: Parser.parse, _parse_table, _parse_aot"]}
{"id": "C43", "title": "Edits inside inline tables are read back", "statement": "Parse a text, nothing given up (C01). Then, any number of times and in any order, replace values anywhere (as in C40) and edit inline tables of the text, also inline tables inside inline tables: set a key, add a new key, delete a key. If the edited inline tables have no dotted keys, neither their values nor the new ones are dates or times (dates inside arrays or inner tables do not matter), the new values stay on one line and only spaces (or a tab first) stand between an edited value and the comment behind it, all edits succeed; the text of the document is accepted, nothing given up, and holds the same data as the edited document; at every changed place the value read is what the same changes do to the Python dict that was there, and key and comment are kept; every other value is as it was in the first text.", "quantifier": "every accepted text without loss, every sequence of edits", "why_tests_cant": "the texts, the nesting and the sequences of edits are unbounded; commas, spaces and deleted entries of earlier edits decide what the next one writes", "anchors": ["tomlkit/items.py: InlineTable.append, InlineTable.__setitem__, InlineTable.__delitem__, InlineTable.as_string", "tomlkit/container.py: Container.append, Container._replace_at, Container.remove", "tomlkit/parser.py: Parser._parse_inline_table"]}
{"id": "C44", "title": "The inherited mapping methods behave like dict's", "statement": "On a document, table or inline table without tables inside, get, pop (with and without default), setdefault, update, |=, | and clear return exactly when they do on a Python dict with the same items, raise the same kind of exception otherwise, return the same value, and leave the same items in the same order, alone and in any sequence with assignments, appends and deletions. clear() also empties containers with tables (each written in one place) and leaves exactly the comments and blank lines between the keys. popitem() is the exception: it removes the first item, not the last.", "quantifier": "every container, every sequence of method calls", "why_tests_cant": "clear and update loop over all keys, and any history can precede them", "anchors": ["tomlkit/_types.py: _CustomDict", "tomlkit/container.py: Container.setdefault, Container.__getitem__, Container.__setitem__, Container.__delitem__, Container.__iter__", "tomlkit/items.py: AbstractTable.setdefault, AbstractTable.__iter__"]}
{"id": "C45", "title": "Edits of the lines of a table change nothing else", "statement": "Parse a text, nothing given up (C01), without lone carriage returns. Then set, add, delete and comment keys of one table [k] of the document, any number of times: doc[k][x] = v, doc[k].add(x, v), del doc[k][x], doc[k].item(x).comment(c), for values that stay on one line and keys that are not names of sub-tables. Only the lines of this table change in the text: what stands before its first line, and what comes from its first sub-table or from the next table on, is the same character by character. The new text is accepted; the document read from it is the old one with other lines in this table: every other entry is the same, the header, comment and sub-tables of [k] are the same, the keys of [k] are those the edits make, and every other key reads the same. The table must be written in one place, its header ends with a line break and is not indented, and it has no dotted keys directly in it and only spaces or tabs in front of its comments.", "quantifier": "every accepted text without loss, every table written in one place, every sequence of edits", "why_tests_cant": "the number and nesting of the tables before and after, the lines and the sequence of edits are unbounded; how a header is read depends on the tables before it", "anchors": ["tomlkit/items.py: Table.append, Table.remove, Table.__setitem__, Item.comment", "tomlkit/container.py: Container.append, Container._replace_at, Container.remove, Container._render_table", "tomlkit/parser.py: Parser.parse, _parse_table, _peek_table"]}
{"id": "C46", "title": "The inherited list methods behave like list's", "statement": "On an array that was parsed or built, and on an array of tables, append, extend, +=, insert, del, pop, remove, clear, len, a[k], in, count, index (any bounds) and iteration in both directions do what they do on a Python list with the same elements: the same elements in the same order afterwards, the same result, the same kind of exception, alone and in any sequence; for arrays also assignment, reverse and add_line. The elements printed are exactly those of the list. Exceptions, as the code stands: sort and *= change the list and not the text, a[i:j] on an array raises AttributeError, and reverse of an array of tables raises NotImplementedError.", "quantifier": "every array, every sequence of method calls, every equality test", "why_tests_cant": "remove, reverse, clear and index are loops over arrays of any length, and any history can precede them", "anchors": ["tomlkit/_types.py: _CustomList", "tomlkit/items.py: Array.__getitem__, Array.__setitem__, Array.__delitem__, Array.insert, Array.clear, AoT.__getitem__, AoT.__setitem__, AoT.__delitem__, AoT.insert"]}
{"id": "C47", "title": "A document compares by its data", "statement": "doc == other, for any dict of plain values, answers what doc.unwrap() == other answers, and doc.value (which str(doc) prints) has every key once and at every path exactly what some part of the document writes there, however many parts a table has, provided that no two parts of one table write the same thing other than as a table. Where two parts collide, == answers although unwrap() raises, and the later part hides the earlier one.", "quantifier": "every consistent document, parsed or edited, every dict", "why_tests_cant": "the nesting and the number of parts of a table are unbounded, and merging parts recurses through all of them", "anchors": ["tomlkit/container.py: Container.value, Container.__eq__, Container.unwrap", "tomlkit/_utils.py: merge_dicts", "tomlkit/items.py: AoT.value, Array.value, AbstractTable.value"]}
