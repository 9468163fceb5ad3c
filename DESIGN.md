# Formal model of sdispater/tomlkit in Lean 4 — design

Source: /repo (tomlkit, commit pinned in the sandbox), read as text, never run.
Everything proved here is proved about the Lean model under `lean/Verif/Model`; the tie to the
Python code is the reading of the source, cited definition by definition.

## Layout

| directory | content |
|---|---|
| `Verif/Model` | the executable model, function by function, each definition citing file and lines |
| `Verif/Spec`  | small specifications that do not mention the model's helpers |
| `Verif/Proofs`| helper lemmas |
| `Verif/Props` | the property theorems `C01_...`, with the non-vacuity examples and the counterexamples |

## Modelling choices

* A Python `str` is `List Nat` (code points, lone surrogates included). Integers are Lean `Int`.
* `Source` (`_chars`, `_idx`, `_current`, `_marker`) is represented by the pair *text between marker and
  index* / *remaining text*. `_current` is `"\0"` at the end, exactly as in the code; `end()` is
  "remaining text is empty" (the code tests the identity of the `EOF` object).
* Exceptions are values. A failing parser step also carries the parser state at the raise, because
  `_parse_array` catches `UnexpectedCharError` and continues from there. An exception raised by an
  editing operation carries no state: the model does not say what was written before the raise.
* Mutable objects are values: a mutation is a function returning the new value. Two places holding the
  *same* object are not represented, except where stated. Where the code's behaviour depends on such
  sharing the model returns the error `unmodelled` instead of a wrong answer.
* Loops and mutual recursion take a fuel argument; running out of fuel is the distinct error `fuel`,
  and C10 proves that it never occurs.
* Floats are opaque: a float item carries the text given to Python's `float`.
* The parser state carries a *ghost* log (`St.loss`): nothing reads it, `parse` throws it away and
  `parseLog` returns it. An entry is written at each place of parser.py where text read from the source
  does not reach the document (swallowed comment, date part cut off, comma dropped, closing bracket of
  a header, reordering by `append`, a lone carriage return after a header, a re-spelled header).

## What is modelled

| Python | Lean | remarks |
|---|---|---|
| source.py | `Model/Parser` (`St`, `P`), `Model/Source` | marker, look-ahead with restore; `Model/Source` field by field, with a simulation proof |
| toml_char.py | `Model/Str`, `Model/Utils` | character classes |
| _utils.py `parse_rfc3339`, `escape_string`, `merge_dicts` | `Model/Utils`, `Model/Convert` | regular expressions as hand-written matchers |
| parser.py | `Model/Parser` | every function; `_to_linecol` in `Model/Files` |
| items.py | `Model/Items`, `Model/Arrays`, `Model/Ops` | `as_string`, `_new`, `Array`, `AoT`, keys, `item()` in `Model/Convert` |
| container.py | `Model/Container`, `Model/Edit` | append, validate, insert, remove, replace, `__setitem__`, rendering, `OutOfOrderTableProxy` as created by a read |
| api.py | `Model/Api`, `Model/Convert` | constructors, `dumps`, `register_encoder` |
| toml_file.py | `Model/Files` | the two replacements; the file system is not modelled |

## What is not modelled

* Python's limit on int/str conversion length (4300 digits), `RecursionError`, memory.
* Float arithmetic and formatting; `tzinfo` names; `datetime` beyond its fields.
* A `Table`'s own `dict` base (written in parallel to its container's); only the container's is modelled.
* A proxy is modelled as freshly created at the end of a path: keeping one and using it after
  the document changed is not modelled.
* Container operations take `str` keys (a `Key` object with its own spelling only where the code
  itself builds one); item objects shared between two containers; subclasses written by users.
* pickling (`__reduce__`), `__repr__`, and typing stubs; `Container._insert_after`, which nothing calls.

## Properties: what is modelled and how it is proved

C01 lossless: whole parser + renderer. Invariant "text so far = rendering of the tree so far" through all
    parser functions (Proofs/Keep*), valid as long as the ghost log is empty; then conditions on the text alone
    under which the log stays empty (Proofs/Quiet*, Spec/Calm; for dotted headers and arrays of tables the
    containers remember the order of their headers, Proofs/Hist), and a grammar of TOML lines in any order
    (Spec/Kept, Proofs/Hush for values by induction on the fuel, Proofs/KeptDoc for lines and headers). Seven counterexamples show that
    the claim is false of the code otherwise (`_partial`).
C02-C05 strings and keys: escape function against the string/key parser, induction on the string.
C06-C09 numbers: digit lists, induction; C09 false for negative results of signed items (witness).
C10-C11 parser totality: fuel adequacy by a length measure (Proofs/Wp: weakest preconditions for the parser
    monad, Steps, Values, Tables); classification of every raised error; two witnesses for C11.
C12-C13 container: representation invariant kept by every operation at every path; refinement to an
    association list, induction on the list of operations.
C14-C17 edits against text: the rendering is split at the edited entry; everything before and after is
    literally the same list of characters. Witnesses where the code loses a header or a line.
C32 merging: Spec/Union says what is written at a path of keys and list positions, in any entry of any part; appending to the scratch
  container of a proxy adds exactly what the new item has written (Proofs/Union, induction on the fuel of append), so unwrap gives
  exactly what is written (Proofs/UnwrapAll); merge_dicts by induction on the path.
C34 copies: Model/Copies; containers that differ only in _table_keys run every history alike (Proofs/Copies, a simulation through
  append, replace, remove and the proxies); a document parsed without loss is its own deep copy (the groups of an array regroup
  to themselves, the keys come in the order of the entries); the deep copy of any other one is the document with its keys in the
  order of the entries (Proofs/Rekey), which renders the same.
C18, C33 documents of lines: an invariant on the body (Proofs/FlatBody: only the last line may be open; every value is read back
    whatever its trivia) is kept by every edit (FlatOps, FlatRows) and its rendering is a text of a grammar of lines that the
    item loop reads back (FlatLines). The meaning of the edits is a list of lines (Spec/FlatEdit). For documents that were read, the
    value parsers are shown to depend only on the text of the value and on what character follows (Proofs/Local, LocalRel,
    LocalValues), so that the text of a value read from a document reads back alone as the same value (ParsedValue); then every line
    the first loop of the parser reads meets the invariant (ParsedLine, ParsedFlat).
C19-C21 arrays: group list against plain list; refinement; slices (false for negative/empty: witness).
    C21 for arrays that were read: a grammar of plain arrays (Spec/PlainArray); reading gives groups in the tidy form (Proofs/PlainArray), which every operation keeps.
    `reverse` is the loop of MutableSequence (C46) over `Array.__getitem__`/`__setitem__`; both keep the tidy form, so C46's theorem on the loop applies with that invariant.
C22 conversion: structural induction over nested values; item() then unwrap.
C23 inline values: rendering of a freshly built array or inline table against the value parser (Proofs/Reads, ReadInline, ReadFloat,
    Tidy, TidyText, LitBuild): a text `ReadsAs` a value, whatever follows it.
C24 dumps of a mapping: an inductive grammar of documents (`Txt` in Proofs/ReadTables: lines, tables, implicit tables, arrays of
    tables) with two halves: the parser reads every text of the grammar as the data it says (Proofs/ReadDoc, Headers, Spine,
    TableSteps, ReadTables, ReadSubs, DocReads), and every converted mapping is written as such a text (Proofs/LitBuild,
    DocText, DocBuild). One shape of mapping is excluded (Spec/Readable); there the claim is false of the code (witness).
C25 sort_keys: permutations of dict items at all levels give the same text.
C26-C27 dates: the regular expressions are matchers written out by hand; case analysis and digit lemmas.
C28 TOMLFile: the two replacements as list functions; induction. The file system itself is not modelled.
C29 error positions: `_to_linecol` as a function of source and index, induction over lines.
C30 concatenation (multi-line strings: two texts of the grammar joined at the seam, by induction on the first), C31 AoT, C35 look-ahead, C36 encoders,
C37 unique keys: as described in the theorem files.
C38 string literals: an inductive grammar of basic strings against the string loop, both directions.
C39 tables for values: the place chosen by _replace_at is computed from the entries (Proofs/Swap); the text is split there.
C40 values replaced anywhere: reading a text and reading the text after the edits are run in lockstep (Proofs/Skel .. LockDoc): at every point both parsers have built containers with the same skeleton (keys, tables, order) and differ only in the values of lines; a line with a new value is read again (Proofs/LineEdit); equal skeletons and pairwise related values give related documents (Proofs/Near*).
C41 the grammar of TOML: Spec/Toml.lean and Spec/TomlDoc.lean are attribute grammars (text and denoted value). By induction over the derivation every text is read by the scanner function for it (Proofs/TomlStrings, TomlNumbers, TomlDates, TomlKeys, TomlValues), then the line and table loops (Proofs/ReadDoc, ReadTables, ReadSubs) are run on the pieces. Dotted keys: Spec/Nest.lean says which dictionary a list of (path, value) pairs denotes; Proofs/Dots, Nests, Means and DotAppend show that appending dotted keys one by one builds a container of chains of tables, several parts under one name where they do not stand together, that reads as this dictionary.
C42 edits above the tables: `Over c t d` says that a document is lines followed by tables with all positions moved (Proofs/Over). The loop that reads tables does not see the lines above (OverTables), an edit of a line does not see the tables below (OverEdit), and fuel is no matter (Stable, Enough); so the edited text is read as the edited lines (FlatLines, FlatBody) over the same tables (Above, AboveEdits).
C43 edits inside inline tables: `InlineOk` says that the entries of an inline table are pairs, blanks and holes that are read again, one by one (Proofs/InlineLines, InlineOk); every operation keeps it (InlineOps, InlineDeep), what is read has it (InlineParsed), and the line it stands on is then a line with a new value, as in C40 (InlineNear).
C44 inherited methods: `Model/Mapping.lean` writes `pop`, `popitem`, `clear`, `update`, `setdefault` and `get` as the loops of `collections.abc` over `d[k]`, `d[k] = v`, `del d[k]` and `iter(d)`; C12's one-operation theorem and an induction over the rounds of `clear` give the claims.
C45 edits inside a table: the run of the parser is cut at the header of the table (Proofs/Found). What is read before the header does not depend on what follows it (Prefix), the header is read in the same way before other lines (HeadAny), the lines of the table are read as in C42 and its sub-tables are read in the same way below other lines (InLines, InTables, Inside, TableAny), and the tables after it do not look into it (At, Found); so the new text is read as the old document with one entry replaced (Within, WithinDoc). The operations on `doc[k]` are the operations on its container (WithinData, WithinEdits).
C46 inherited list methods: `Model/Sequence.lean` writes the loops of `collections.abc.MutableSequence` over a record of the five methods a class defines; Proofs/Sequence shows for every class whose five methods act as on a list that the loops do too (inductions over the rounds), and Props/Sequence gives `Array` and `AoT` as instances, from the step theorems of C19 and C31.
C47 equality: `Container.value` is the merge of all parts; an induction over the entries of every container, with C32's theorem on `merge_dicts`, shows that it has at every path what is written there; so has `unwrap` (C32), and `==` on plain values (`Model/Equal.lean`) depends on nothing else.

## Trusted base

Lean 4.33 kernel; axioms at most `propext`, `Classical.choice`, `Quot.sound` (no axioms of our own; `vcheck`
prints them per theorem); the faithfulness of the hand translation. No Mathlib module is imported.
Non-vacuity examples and counterexamples are closed terms evaluated by the kernel (`decide +kernel`, `rfl`).

## Mutation testing

`seeded/LOG.jsonl`: each line is one realistic bug put into the model in a scratch copy, the claim it breaks
and the theorems that failed to prove.
