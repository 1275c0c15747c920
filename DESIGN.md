# A Lean 4 model of oca-rs and what is proved about it

## Approach

The Rust code is read as text and modelled function by function as total, computable Lean
functions (`lean/Verif/Model/*.lean`). Every definition carries the file and lines it models.
`Result`/`Option` stay data, a panic (`unwrap`, `todo!`, out-of-range index) is an explicit
`Res.panic` value, `&mut` becomes a returned value, loops become folds.

* Strings are lists of Unicode scalar values (`Str`); Rust's byte-wise `Ord` on UTF-8 equals
  code-point order, which is what `Str.lt` is.
* `HashMap`/`BTreeMap` are canonical finite maps (`FMap`, strictly sorted association lists, so
  equality is extensional). Wherever the code *iterates* a `HashMap`, the model iterates in the
  order given by an oracle `Order.iter site ctx` which is only known to be a permutation; theorems
  quantify over all oracles, and each bundle generation has its own oracle, because Rust's hasher is
  seeded per map. `IndexMap` is an insertion-ordered association list (removal is `swap_remove`).
* The digest (Blake3 through the `said` crate) is an uninterpreted function of the JSON value that
  is hashed; nothing is assumed about it except that its text is accepted as a SAID. Where
  collision-freeness matters the theorem says "... or these two named, different objects have the
  same digest".
* Grammars: the pest operators have a fuel-free big-step semantics (`Peg.lean`) and the grammars are
  transcribed rule by rule, including which rules emit tokens.

## Layout

| layer | modules | models |
|-------|---------|--------|
| data | `Basic`, `Ast`, `AstJson`, `Condition`, `Attribute`, `Bundle` | ast crate, conditions, overlays and their JSON |
| building | `AstValidator`, `OcaBox`, `Build`, `FromBundle`, `SemValidator`, `ToAst` | validation, `apply_command`, `from_ast`, `generate_bundle`, loading, exporting |
| text | `Peg`, `Grammar`, `Instructions`, `Printer`, `FileText` | the OCA file grammars, instruction builders, `generate_from_ast`, dispatch |
| storage | `Bytes`, `JsonText`, `BundleJson`, `Storage`, `Explore`, `Facade`, `Dag`, `Transformation` | records, stores, facade, core models, version graph, transformations |
| proofs | `Lemmas/*` | facts about the model |
| claims | `Props/*` | one or more theorems `Cnn_…` per property, with examples |

## Plan per property

| id | modelled by | proof |
|----|-------------|-------|
| C01, C02 | `Condition.lean` (both regexes as scanners) | induction over the text |
| C03 | `Condition.lean` check_condition | case analysis + C02 |
| C04, C05 | `Ast.lean` tables | finite table + digit scanner lemma |
| C06-C08 | `AstJson.lean` | structural induction; negation witnesses |
| C09, C10 | `AstValidator.lean` | induction over the command list |
| C11, C24-C26, C47, C48 | `Build.lean` apply_command | case analysis per overlay kind |
| C12, C13 | `Build.lean` from_ast | induction over commands |
| C14-C17 | `OcaBox.lean` generate_bundle against a declarative spec | invariant over the attribute fold |
| C18, C21, C27, C28 | `SemValidator.lean` | from the definitions; collision extraction |
| C19, C20 | the spec of C14-C17 is order-free | permutation argument |
| C22, C23 | `FromBundle.lean`, `ToAst.lean` | lookup-extensionality of maps |
| C29 | `BundleJson.lean` | round trip |
| C30-C32, C37, C40, C41 | `Facade.lean`, `Bytes.lean`, `Storage.lean` | refinement / induction over histories of facade calls |
| C33, C34 | `Bytes.lean`, `Explore.lean` | codec round trip + invariant |
| C35 | `Storage.lean` | refinement to a map |
| C36 | `Facade.lean` deref functions | structural |
| C38 | `Facade.lean` retrieve_all_references | induction on fuel = path length |
| C39 | `Facade.lean` paging | list arithmetic |
| C42, C43 | `Dag.lean` | invariant |
| C44 | `Transformation.lean` | fold lemma |
| C45 | `FileText.lean` (top-level grammar and dispatch) | `topScan`: the token scan as a recursion over the text; induction over the parts of the file |
| C46, C49 | `Grammar`, `Instructions`, `Printer` | big-step PEG derivations for printed text |
| C47, C52, C53 | `Grammar`, `Instructions`, `AstValidator` for every text | token shapes of each grammar rule (`Emits`), then each instruction builder |
| C54 | C52 + C49 | the commands of a text are printable unless excluded |
| C55 | `FileText.parseTransformation`, `Transformation` | token lemmas for transformation files; for every text, token shapes |
| C56 | `FileText` (entry points taking text) | case analysis over `parseFile`; C60 for the storing part |
| C57 | `Fetch` (`Facade.bundleAst`, `Facade.bundleFile`), `Printer`, `Grammar` | C30 gives the history, dereferencing keeps the shape of commands of a text, C49/C50 print-parse; converse by running the validator on the printed lines |
| C58 | `Build.fromAst`, `OcaBox.apply`, `Lemmas/Tidy` | a state up to names without content (`tidy`) determines the bundle; commands respect it; the loaded base is the tidied state |
| C59 | `BundleJson.Bundle.ofJson` | case analysis on the loader, for every JSON document |
| C60 | `Facade.build`, `Explore`, `Dag`, `Storage` | invariant: the relations are readable (`RelsGood`); every write of a build succeeds |
| C61 | facade, history, `Bundle.ofJson`, `OCABox.ofBundle`, `fromAst` | the stored JSON loads to a bundle that shows the generated one (`Bundle.Shows`); the box loaded from it is the tidied box, and tidied boxes continue alike (C58); then an invariant over the chain of recorded operations (`Replays`), by induction on the fuel of the history loop |
| C62 | `Model/Fetch.lean` (getObject(s), fetchAllRefs, searchRecords) over the facade of `Model/Facade.lean` | induction over the builds made: the cache is the last write (C36), the recorded kinds are the relations' metadata (C60), the index is the fold of the meta rows; the query is C67's: the theorem is for every list of index rows |
| C63 | `Model/Dag` `dagBuild` (`build_oca`): two hash orders per step, the store as a map | relation `DagTrace` (state before, command, bundle after; a rejected command leads to the empty state) is equivalent to the loop; records by induction from the end; comparison with `from_ast` step by step (`said_any_order`); FROM by `stored_loads`, `Shows.tidy` and `trace_tidy` |
| C64 | `Model/Package` (`facade/bundle.rs`, derived serde of `Transformation` and `Bundle`) | member lookup of the written objects, C29 for the model, `Serde` law within the depth limit; identifier via the digest of the placeholder object; collision pair named |
| C65 | `Model/WholeAst` (derived serde of `OCAAst`, `TransformationAST`, `CommandMeta`; the hand-written transformation `CommandVisitor`) | C06 for commands, decimal keys read back, `FMap.ofList` of any permutation; for texts by cases on the command forms of C52/C55 |
| C66 | `Model/Crash`: the build and `build_from_ocafile` as programs that emit their writes one by one; a kill is a prefix of them, a machine crash a prefix for each of sled database, sled cache and SQLite | run to the end the programs equal `Model/Facade` (C66_last_point); invariants kept by every write (`Prog.Always`): records, names, relations between those of the finished and of the begun files; retry by C40's alikeness of rebuilt bundles; kill points constructed for the findings |
| C67 | `Model/Search.lean`: `OCABundleFTSRepo::search` (query text, grouping by identifier, ranking, LIMIT/OFFSET, the row of NULLs past the end, `get_scope`) and `search_oca_bundle`; FTS5's match/rank/snippet, the bare columns of a group and the order of ties are a structure `Fts` with only the laws SQL gives; the regex crate is `Rx` | slices of the ranked groups are a prefix; groups have distinct identifiers; the rows are those of C62_search_index; every kept bundle is fetched by C62_search_records; aborts by following one bad row through its page |
| C68 | `fromAst` on a base, `Attribute.merge` as `Attribute.put`, `checkBase`, `fetchBundle`, texts of C52 | what a command says (`Says`, `SaysScope`, `SaysMeta`, `AddsType`) is read off the command alone; one-step lemmas (after one accepted command: said by it, or kept and not spoken of) and one induction `last_decides'` over the commands; the base by `shownBox` (C28) and well-madeness of stored bundles (C29) |
| C69 | `Model/Api`: setters, `Attribute.Made`, `ApiCall`; `Attribute.merge`, `OCABox.addAttribute`; `Reachable` extended by calls | `Joined` says independently of the code what an attribute says when another is added; `merge_carries` by cases over the kinds, lifted to bundles by C14/C17; equalities of states by extensionality of maps |
| C70 | `Facade.steps`, `Facade.build`, `Facade.validate` | the records of a step are those of the last step with its result (`keepsLast`, induction over uses of the facade and over the steps of a build); parents are results of earlier steps (`ordered`); the three ways back by pigeonhole on the finitely many results |
| C71 | printing an AST, parsing the text, printing again, any number of times | `Command.reread` says what a printed command is read back as (only META's properties move); exact round trip `C49_print_parse_exact`; fixed point of formatting for files without a META of two or more properties, rotation with period = number of properties otherwise; iteration by induction |
| C72 | exporting from one facade, validating and building on another | text of the history (C57) → parse (C49 exact) → build on any facade (C60) → same steps (`applyCommand_like`), no bundle twice (`Lineage.nodup`, from C70) → history of the target (C30) and same bytes |
| C73 | lines of a file | `SrcLine` lists lines; induction over the list with what may follow a command (`Follow`), blank line after a frame is swallowed (`Toks.gone`) |
| C74 | `Bundle.toJson`, `overlaysJson`, `Overlay.toJson`, `CaptureBase.toJson` | a specification in terms of member names of documents; equivalence overlay by overlay, then the grouping lemma of C29; composed with C68 |
| C75 | the whole grammar and the instructions | a layout is a value (`LayoutSpec.lean`) with a text and a meaning; each grammar rule yields the token of that meaning whatever the gaps; what a command leaves of the blanks after it is tracked to the line level; tokens to commands by induction over the lines |
| C76 | tokens and their numbers, `from_ast`, `parse_and_check_base` | the number of a token is its place among the tokens; what a line of a layout adds is computed from the grammar proof of C75; the errors of `from_ast` carry the number kept under the index of the command, shifted by one behind a base |
| C77 | `Standard`, `StandardOverlay` and their deserialisation | the reading of a map of texts value by value; the identifier of what is read is compared with that of what was written |
| C78 | the text of the query of `search`; FTS5's reading of it as a small grammar with a meaning (`Props/SearchLanguage.lean`) | the text is one of the grammar, whose meaning does not depend on the language; with C67 the pages then do not either. `Fts.reader` parses the grammar (proved for every text of it) |
| C79 | `OCABox::from` (`state/oca.rs:684-919`) on bundles that this program did not build: several overlays of a kind, category labels, standards, subsets, names that are no attributes, conditions numbered in any way | `ReadsBack` says what reading a numbered condition means; `C79_load_aborts_iff` gives the exact set of bundles on which loading aborts (it never ends with an error); the rest compares the bundle generated from the loaded state with the one loaded, fact by fact: the last overlay that tells a fact of that kind wins (`C79_facts`, `C79_conditions`, `C79_scopes`, `C79_meta`), the capture base is the same (`C79_capture_base`), a build on it (`C79_build`, C68 without its condition on the base), and what is never kept (`C79_lost`); a fold over the overlays in load order is shown equal to the last one in document order. The steps are compared through `LastIn`. |
| C80 | `Validator::validate`, `validate_conditional` (`state/validator.rs:85-310`) on bundles of any origin | `Filled` says what replacing the numbers of a condition gives (`fill_iff`: the scanner does that and nothing else, for every text); `C80_aborts_iff`, `C80_reports`, `C80_accepts_iff` are exact; `C80_example` runs seven bundles |
| C81 | `OCABundle::to_ast` (`state/oca.rs:928-1295`) on bundles of any origin, then `from_ast` | a specification of the value and the properties each overlay gives (`OvBody.Value`, `OvBody.Property`, `Overlay.ToldBy`); `C81_commands` shows the commands are these, `C81_aborts_iff` when there are none; `says_told` turns them into the facts of C68, from which `C81_facts`, `C81_first`, `C81_meta`, `C81_capture_base` follow for every order; `C81_lost` by induction over the build; `C81_file` adds printing and parsing (C49, C50) |
| C82 | `ADD FLAGGED_ATTRIBUTES`, `REMOVE META/LABEL` as parsed and applied | a flagging command is the identity on the state, so results, messages and final state of the shorter list agree (induction on `Unflagged`); no attribute of a state is flagged is an invariant of commands, of loading unflagged bundles and of repositories; REMOVE of an overlay is an abort in every state (`Props/NoEffect.lean`) |
| C83 | `OCABox` and `Attribute` with every field arbitrary (`Model/ApiMore`: `add_category_label`, `add_attribute_mapping`) | the generation lemmas need only that no scope overrides `frame_id`; mappings stay in front because no overlay key matches them; the JSON groups keep the last mapping |
| C84 | `Model/Threads.lean`: `build` and the saving of the name as a tree of single reads and writes (`Thr`), threads as lists of jobs, `Interleaved` = any order of turns; `Props/Threads.lean` has the specification (`Facade.store`, `Jobs`, `Agree`, `SameHeld`, `Turn`) | a thread alone is the sequential model (`C84_alone`); rely/guarantee: each thread's assertions are kept by any write another job can make (`Lemmas/Threads*`), then composed by induction on the run; termination by well-foundedness of the trees |
| C85 | `Props/ThreadHistory.lean`: `Happens` = validations, turns of threads (`Model/Threads`) and kills in any order; `stepsAt` = `get_oca_bundle_steps` with the storages as they are at each read | invariant `Facade.Whole` (each cached bundle has its operation, each operation's parent is cached); each thread is safe by a small Hoare logic on its remaining reads and writes (`Thr.Safe`), records never disappear, induction on the run and on the rounds of the reader |
| C86 | `Model/Failures.lean`: `build` and the saving of the name as a program that is told of every write whether it succeeded (`Attempt`), with `.unwrap()`, `?` and `let _ =` where the code has them; `Tries f l r` = a run in which the writes of `l` were tried and succeeded or not; `Props/Failures.lean` has the specification (`Write.Lasting`, `Bundle.OverlayMeta`, `Facade.Retried`, `Facade.SameRecorded`) | the writes tried are a fixed list up to the relations (`Fixed`), so the last attempt writes all records over whatever earlier ones left; a Hoare logic for the relations (`Attempt.Leaves` with the invariant `Sound`: relations right, kinds right, old ones there); the findings by runs given for every job |
| C87 | no new model: `Facade.Loses` (Props/Threads.lean) says that each of the three storages is as it was or empty; it is also a step of `Facade.Shared` (C84, C86); `Facade.Files` (Props/Lost.lean) = files validated and built one after the other | the writes of `build` other than relations do not depend on what is held (`Must.blind`, `Careless.blind`), so both runs make the same ones (`stores_again`); a storage that was lost ends equal because it starts equal, one that was kept because making the same writes twice is making them once (`foldl_again`, `cache_fixed`, `db_fixed`); success and relations from C84; files: validation depends on the cache only (`validatePlain_cache`). Not covered: replaying files with other hash orders (the order of overlays in a bundle can differ), or with local references |
| C88 | no new model: `Facade.feed` and `Facade.fates` (Props/Same.lean) fold `Facade.buildFile` over files, each with its own orders | induction over the files with the invariant `Facade.SameAll` (same answers, and relations with the same members): a file that is accepted by one is accepted by the other with the same bundle but for the order of overlays (`validate_again`, C66), can be stored (C60), and writes the same (`cacheWrites_alike`, `dbWrites_alike`; `fts_alike` for rows added in two orders to two permuted tables); a file that is refused by one is refused by the other with the same errors, since `fromAst` fails independently of the orders (`fromAst_fate`, from C12). Core model records excluded: they list overlays in hash order. |
| C89 | the reader of Model/JsonText.lean (`serde_json::from_str`) | an inductive grammar of JSON texts (`Document`, `SpellsValue`, `SpellsText`, Props/JsonSpelling.lean) written from RFC 8259; each direction by induction: over the derivation (what is written is read), over the reader's steps (what is read was written). Signs, fractions and exponents of numbers are not in the grammar, because the reader modelled has none: no value this code reads or writes contains one. `serde_json` skips the members a structure does not have by laxer rules (no limit on nesting, no check of surrogates); the model reads them like the others |
| C90 | no new model: `generateBundle`, `applyCommand`, `fromAst` | two states that carry the same facts of a key give the same body of overlay (`IsBody.transfer`, from the exact description of bodies in Lemmas/Overlays and C17); signing is a function of the capture base and the body; C24 says that adding an overlay touches its own layer only, and an induction over the added commands carries that to a file; `FROM` by C58 |
| C91 | no new model | `TellSame` (Props/Content.lean) compares what two bundles show through the specification predicates of C14 and C17; first direction: C90 for each layer gives the same members, C16 that no layer occurs twice, so the overlays are a permutation, and serialisation sorts them (as in C19); second direction: C21 on bundles whose overlays are all shown; for lists of entry codes the same up to `Overlay.tidy` (Props/ContentCodes.lean) |
| C50, C51 | the above + `Build`, `ToAst` | composition, commands equal up to property order |

## Trusted base

* **Lean 4.33.0's kernel.** No `native_decide`, `bv_decide`, no axioms of our own; concrete
  examples are evaluated by the kernel (`decide +kernel`).
* **Axioms.** Every theorem depends at most on `propext`, `Classical.choice` and `Quot.sound`
  (checked by the gate with the axioms printed for every theorem).
* **The transcription** of the Rust text into Lean, definition by definition, as cited.
* **Parameters and their laws.** Theorems quantify over every instance of these structures; the
  laws are what is trusted about the libraries. Each has a concrete instance in the development
  (`Env.demo`, `Env.short`, `Serde.text`, `Uni.ascii`, `Order.sorted`/`reversed`), so no law is
  contradictory.
  * `Env` - `said`: which texts are SAIDs (`validSaid`), the digest of a JSON value (`digest`, always
    a valid SAID), the `v` version string (any function of the content); `isolang`: the two letter
    table in both directions (mutually inverse), the deserialiser (reads back a language that has a
    two letter code); `urn` and `regex`: which texts are valid standards; `to_lowercase` (idempotent); `regex`: which characters are `\d` (ASCII digits among ASCII).
    Some storage theorems assume in addition that the empty text is no SAID.
  * `Serde` - JSON text: printing then parsing a value nested less than 128 deep with numbers in u64
    gives the value back. `Serde.text` (`JsonText.lean`) is a concrete printer and parser, proved to
    satisfy the law, so the law is about the *choice* of serde_json, not an assumption of the proofs.
  * `Uni` - Unicode classes LETTER, NUMBER, the four scripts and `to_lowercase`; known only on ASCII.
  * `Order`, `SetOrder` - hash iteration orders: any permutation.
* **SQLite** is modelled as tables of rows in insertion order with the specific statements the
  code runs (INSERT OR IGNORE by primary key; the page query with its LEFT JOIN and GROUP BY).
  **sled** is a map per tree. The **file store** is a map from paths.
* **Rust runtime**: overflow checks on (as in debug builds) where arithmetic can overflow; memory and
  stack are unbounded; no errors of reading or of creating tables (failed writes are C86, crashes between writes C66); one thread per
  facade (the code takes `&mut self`); several facades on the same storages are C84, each read and write being atomic and none failing because another one
  holds a lock (SQLite's busy errors, which `build_models` drops, are not modelled).

### How the model was compared with the code

The code cannot be run here, but the repository's own tests say what it does on some inputs. `Props/Blake3.lean` writes the digest of the code (BLAKE3, in the
URL-safe alphabet behind `E`) and the version text in Lean, and `Props/Conformance.lean` runs the model on the inputs of the tests and gets what they assert, the
identifiers included: a single byte of difference in any text the code hashes would change them. Covered are all tests with assertions on modelled
code: `tests/build_from_ocafile.rs` (all five; the search on a shorter file), `facade_get_ocafile`, the tests of `semantics/oca-file`, of `oca-file` and of
`transformation`, `ast/attributes.rs`, `ast/mod.rs` and `validator.rs` of `oca-ast`, `test_build_core_db_model`, `create_oca` (the whole
expected text with 14 identifiers), `load_oca_box_from_oca_bundle` and the tests of `state/validator.rs`. Not covered: `test_checking_condition` (Lua is abstract), the tests of the
category code (not modelled) and tests that assert nothing. These are tests of the model, evaluated by the kernel; no theorem rests on them.

## Modelled

`semantics/oca-ast`: `ast/mod.rs`, `ast/attributes.rs`, `ast/…` types, serde of commands, values,
attribute types, references, object-kind codes; `validator.rs`.
`semantics/oca-bundle`: `state/oca.rs` (all of generation, (de)serialisation of overlays and bundles,
`From<OCABundle>`, `to_ast`), `state/attribute.rs`, every `state/oca/overlay/*.rs` and
`capture_base.rs`, `state/entries*.rs`, `state/encoding.rs`, `state/validator.rs` (all except Lua
execution), `build.rs`.
`semantics/oca-file`: `ocafile.pest` in full, `ocafile/mod.rs`, `instructions/*`.
`semantics/oca-dag`: core models, version graph, build path. 
`oca-file`: top-level grammar and dispatch. `oca`: `facade/build.rs`, `facade/fetch.rs`,
`facade/explore.rs`, `data_storage/*`, `repositories/*`.
`transformation`: AST, build, package.

## Not modelled

* Lua: `check_condition`'s script is handed to an abstract evaluator; the validator's condition
  check is modelled up to the script text and the sample values.
* What SQLite's FTS5 matches, its ranks and snippets, and the regex crate (parameters `Fts`, `Rx` of `Model/Search.lean`).
* `oca-bundle`'s test-data generators, `xls` parsing, CLI/WASM/FFI bindings, network data
  repositories; serde details of error messages; pest error positions and messages (a parse failure
  is one error value).
* `said::make_me_sad` (C64): modelled as documented - version string first, `d` replaced by the digest of the
  object with a placeholder in `d`; its code is a dependency. `Bundle::fill_said` of a package (derived code) is not modelled.
* Byte-level digest computation and the `v` string's length field (an abstract function of the
  content).

## Where the code and the intended property disagree

Each item is a theorem about the model (name in parentheses) and the properties file states the
claim that does hold.

1. JSON history of a command loses AttributeMapping overlays, versions other than 1.1, and turns
   text shaped like a reference into a reference (C06_*).
2. Contradictory metadata for one frame makes the SAID depend on hash order
   (C19_order_matters_for_conflicting_frames); a build generates its bundle twice, so the returned
   bundle can then differ from the last step's (C12).
3. Second UNIT / ENTRY_CODE for an attribute is silently ignored (C24_later_unit_ignored).
4. Removing an attribute another attribute's condition depends on leaves a dangling dependency, and
   validation then aborts (C25_dependencies_survive, C28_removed_dependency_aborts).
5. An extra overlay of a single-occurrence kind can be smuggled into a bundle without changing any
   SAID (C21_smuggled_overlay).
6. FROM with no command aborts (C12_empty_build_aborts); FROM of an unknown SAID is silently ignored
   and error lines are then off by one (C41_*).
7. to_ast drops links and framings, aborts for languages without two letter code (C23_*).
8. META named like a reserved key makes the stored bundle unreadable (C29_reserved_pair_aborts).
9. A command that changes nothing makes the stored history malformed, an add/remove pair makes the
   lookup loop forever (C30_*).
10. File store keys with path syntax escape their namespace (C35_files_keys_escape).
11. Names in arrays nested twice are not dereferenced (C36_deep_name_survives) nor followed
    (C38_nested_not_followed); a name table entry that is no SAID aborts (C36_bad_identifier_aborts).
12. Page 0 aborts (C39_page_zero_aborts).
13. Core models confuse LINK overlays of different targets (C42_links_confused).
14. REMOVE of an overlay, an unknown language code and a LINK without target abort the build
    (C47_aborts_exist).
15. Exporting a bundle as OCA file glues the classification to the last attribute, prints an
    incomplete command without attributes and does not escape quotes (C51_*).
16. A comment inside a framing aborts the parser (C53_comment_in_frame_aborts); a file with a base or a name that is not a
    SAID, or a reference by name, is stored but can not be exported (C57_*).
17. `get_oca_objects` aborts for bundles stored only as a step (C62_intermediate_object_aborts); the version graph loses the
    commands of a file that is rejected, and a build whose result is its own base gets itself as parent (C63_*).
18. A package without a model, or with a model not in its first member, aborts on loading (C64_load_aborts).
19. A kill between two writes of a build can leave a listed bundle that is unknown, a search that aborts, a history that
    aborts or is lost (C66_*).
20. A search for text with an unbalanced bracket aborts, and so does one that meets a record without bundle (C67_*).
21. `add_attribute` of an attribute that is there drops the flag of the one given, and replaces all its links and frames
    even when they have other targets and ids (C69_add_attribute, C69_concrete).
22. Printing a META command moves its last property to the front (`IndexMap::remove` is a swap-remove), so formatting a
    file with a META of several properties is never final (C71_meta_turns, C71_example).
23. The JSON of a command is read only with its members in one of two orders: a command whose `content` stands before its
    `object_kind` is refused (C65_command_read_exact, C65_content_first_refused).
24. A command may not be indented, and blanks after the last command of a file that does not end in a line break make the
    grammar refuse the file unless that command adds an overlay (C75_indented, C75_last_blanks).
25. **A comment inside a command is an attribute** (`C75_comment_is_attribute`). The grammar allows comment lines after a `\` at the end of a line
    (`ocafile.pest`, `arg_ws`). The comment is a token among the attributes of ADD ATTRIBUTE, and `helpers.rs` 47-82 reads it as an attribute: it
    finds no key and no type in it and returns the empty name with type Text. The file gains an attribute nobody wrote.
26. **A test of the repository passes by accident** (`Props/Conformance.lean`, `confOther`). `build_from_other_bundle` (`tests/build_from_ocafile.rs:66-94`)
    builds a file and then a second one whose `FROM` names an identifier that is not that of the first bundle and that nothing is stored under. The unknown
    base is passed over (C41), and the asserted identifier is that of a bundle with the one attribute `x`. In `test_add_attribute_instruction` the line
    `ADD ATTRIBUTE name=Text` is listed as invalid, but it is read: the test asserts nothing in that case.
27. **Line numbers of errors are off** (`C76_not_the_line`). `parse_from_string` (`ocafile/mod.rs` 66-123) numbers the tokens, not the lines: a comment or
    blanks behind a command count as one more, and a command continued with `\` counts once. After them every number is wrong.
28. **A standard with a capital letter loses its identifier** (`C77_capital_invalid`). `Standard::new` (`state/standard.rs` 13-17) puts the text in lower
    case while reading, so an overlay whose identifier was computed over the text as written no longer has the identifier of its content.
29. **A word of one or two letters is never found** (`C78_example`). The index is made with the trigram tokenizer (`oca_bundle_fts_repo.rs` 44), which has no tokens
    for shorter words; and a language given to a search never narrows it (`C78_search`).
30. A bundle that passes `validate` need not survive being a base: a `Unit`, `Label` ... overlay for a name that is not an attribute makes `OCABox::from` (and so `FROM`, and `to_ast`'s callers that load it) abort, since it unwraps (`oca.rs:728` and on); and a `Standard`, `Subset`, mapping overlay or a category label is dropped without a word, so a `FROM` of such a bundle does not extend it (`C79_example`, `C79_lost`).
31. Only the first conditional overlay is checked (`validator.rs:130-140`): a condition on itself in a second one is accepted (`C80_example`). A reported condition hides every wrong identifier of the same bundle, since `validate_conditional(...)?` returns at once; and a number without a name, a name that is no attribute, or a missing list of names makes validation abort rather than report (`unwrap()` marked `todo`).
32. Exporting a bundle and building the commands is not the same as loading it as a base: with two unit (or entry code) overlays for an attribute the first wins when building and the last when loading (`C81_example`, `C79_example`), since `Attribute::merge` (`attribute.rs:79-148`) keeps a unit and entry codes that are there. A meta overlay with a pair named `lang` loses its language on export: the pairs move to the named language, or the build aborts (`to_ast` puts the pairs among the properties, where `lang` is the language). Flags, frames, links, mappings, standards, subsets and categories are not exported and nothing says so (`C81_lost`, `C81_capture_base`).
33. `ADD FLAGGED_ATTRIBUTES` has no effect: the parser reads the whole list as one name, and `apply_command` never looks at `flagged_attributes`, so no file can flag an attribute (C82). `REMOVE META` and `REMOVE LABEL` parse, lose their language and names (the first inner token, `lang`, ends the loops of `remove.rs`), and building them hits `todo!()` (C82).
34. `add_attribute_mapping` can be called several times and every mapping becomes an overlay of the bundle in memory, but `serialize_overlays` keeps only the last overlay of that kind: the document and the bundle's SAID do not depend on the others (`C83_last_mapping`). A category label is dropped unless the attribute has a label in the same language (`C83_category_labels`). Frame metadata under the key `frame_id` moves the attribute to another frame, with a result that depends on hash order (`C83_misnamed_frame`).
35. Facades on the same storages lose relations: `add_relations` reads the relations of the bundle, the capture base and each overlay at its start or in its loop and writes them back later (`explore.rs:64-124`), without a lock or a compare-and-swap, so what another thread wrote in between is overwritten. Two threads that take turns while they build two files with the same capture base both succeed, and the capture base does not know the second bundle (`C84_lost_relation`). All other records are as after sequential builds, and a later build of the lost file puts the relations right.
36. Readers can abort while another thread writes: `search_oca_bundle` unwraps the bundle of each row it finds, and the row is written before the bundle (`C84_search_aborts`); `get_oca_bundle_steps` aborts between a step's operation and its bundle (`C84_history_aborts`). Once a bundle can be fetched, its history is safe to read (C85).
37. Rows are lost without a sign: every statement of SQLite that `build` makes is written with `let _ = ...`, so a build whose rows could not be written returns as if all were well; all records are there, but no listing has the bundle and no search finds it (`C86_rows_lost`).
38. So are relations: `build` drops the error of `add_relations`, so one failed write of metadata makes all relations of the bundle missing, and `build` returns as if nothing had happened (`C86_relations_lost`). Building the file again repairs it (`C86_repair`).
39. The metadata of an overlay is written with `let _ = ...`, but when that write fails and the overlay is new, `build` aborts, because `add_relations` unwraps the type it reads back (`C86_overlay_metadata`); the core model is then not written.
40. A cache that is lost (the examples of the library keep it in memory) is not noticed: `get_oca_bundle_steps` unwraps the bundle of a recorded operation and aborts, `search_oca_bundle` unwraps the bundle of each row, and `validate_ocafile` drops the error of a base it cannot fetch and builds the file without it (`C87_cache_lost`). Building the same files again in the same order repairs everything (`C87_files`); in another order it does not (`C87_files_example`). With the database lost, `get_oca_objects` aborts for every object it still has (`C87_db_lost`).
