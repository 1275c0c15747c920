{"id": "C01", "title": "A condition survives being stored in a bundle", "statement": "Setting a condition text on an attribute (ADD CONDITION) rewrites every `${name}` to `${i}` plus a dependency list; reading it back (to_ast, or loading the bundle as a base) yields exactly the text that was set, and setting the read-back text stores exactly the same thing again.", "quantifier": "every condition string, including nested or unterminated `${`, digits inside placeholders, repeated names and the empty name", "why_tests_cant": "the input space is all strings; the rewriting uses two different regular expressions whose interaction only a proof over all strings settles", "anchors": ["semantics/oca-bundle/src/state/oca/overlay/conditional.rs: set_condition", "semantics/oca-bundle/src/state/oca.rs: From<OCABundle> for OCABox, OCABundle::to_ast"]}
{"id": "C02", "title": "Condition dependency lists are exact", "statement": "The dependency list stored with a condition has no duplicates, contains exactly the names between `${` and `}` in order of first occurrence, and every `${i}` placeholder left in the stored text has i inside the list (so expansion never indexes out of range).", "quantifier": "every condition string", "why_tests_cant": "out-of-range indexing would be a panic on one particular string shape; tests only sample shapes", "anchors": ["semantics/oca-bundle/src/state/oca/overlay/conditional.rs: set_condition"]}
{"id": "C03", "title": "check_condition refuses self-reference and missing values, otherwise runs the fully substituted script", "statement": "For an attribute whose condition was set, check_condition reports exactly one error if the attribute depends on itself plus one error per dependency without a value, in order; with no such error the script handed to Lua is the condition with each placeholder replaced by the value of the dependency it named.", "quantifier": "every attribute name, condition text and map of dependency values", "why_tests_cant": "ranges over all texts and all value maps", "anchors": ["semantics/oca-bundle/src/state/oca/overlay/conditional.rs: check_condition"]}
{"id": "C04", "title": "Overlay type strings round-trip", "statement": "Writing an overlay type as `spec/overlays/<name>/<version>` and reading it back gives the same type and version, for all 21 kinds; different types are never written the same; every other string is rejected.", "quantifier": "every overlay kind and every version of the form digits.digits; every input string for rejection", "why_tests_cant": "versions are unbounded strings; injectivity is over all pairs", "anchors": ["semantics/oca-ast/src/ast/mod.rs: Serialize/Deserialize for OverlayType"]}
{"id": "C05", "title": "Object kind byte codes are a faithful code", "statement": "Converting an object kind to its byte and back yields the same kind; distinct kinds have distinct bytes; every byte above 22 aborts instead of yielding a kind.", "quantifier": "all object kinds with any content and all 256 bytes", "why_tests_cant": "content ranges over all commands; the two tables are maintained by hand", "anchors": ["semantics/oca-ast/src/ast/mod.rs: From<u8> for ObjectKind, From<ObjectKind> for u8"]}
{"id": "C06", "title": "Commands survive JSON", "statement": "A command written as JSON (as the build history stores it) reads back as the same command if and only if: every reference in it is well formed, no plain text value has the form of a reference, and an overlay command is neither an attribute mapping nor of a version other than 1.1. (So the unconditional round trip is false: an AttributeMapping command does not read back, a version other than 1.1 is lost, a text that looks like a reference becomes one.)", "quantifier": "every command, no side condition", "why_tests_cant": "commands contain unbounded nested values", "anchors": ["semantics/oca-ast/src/ast/mod.rs: Serialize/Deserialize for Command, ObjectKind, NestedValue, OverlayType FromStr/Display"]}
{"id": "C07", "title": "References print and parse consistently", "statement": "`refs:<said>` / `refn:<name>` printed from a reference parse back to the same reference, for any name including ones with colons; anything accepted by the parser prints back to the text parsed; texts without a colon or with another tag are rejected with the matching error.", "quantifier": "every reference and every string", "why_tests_cant": "all strings", "anchors": ["semantics/oca-ast/src/ast/mod.rs: RefValue FromStr/Display/Serialize/Deserialize"]}
{"id": "C08", "title": "Attribute types survive JSON at any nesting", "statement": "Serialising an attribute type (reference, base type, arrays nested to any depth, null) and deserialising gives the same type; an empty JSON array aborts, extra array elements are ignored, other JSON is an error.", "quantifier": "every attribute type, every nesting depth, every JSON value", "why_tests_cant": "nesting depth is unbounded", "anchors": ["semantics/oca-ast/src/ast/attributes.rs: Serialize/Deserialize for NestedAttrType"]}
{"id": "C09", "title": "A parsed command list never re-adds a live attribute nor removes an absent one", "statement": "If the AST validator accepted each command against its predecessors then at every position an ADD ATTRIBUTE names only attributes not currently present and a REMOVE ATTRIBUTE only attributes currently present, where presence is: the last earlier command mentioning the name added it.", "quantifier": "every accepted command sequence of any length", "why_tests_cant": "property of all histories", "anchors": ["semantics/oca-ast/src/validator.rs: OCAValidator::validate, extract_attributes"]}
{"id": "C10", "title": "AST validation rejects exactly the rule violations", "statement": "validate returns an error iff the AST version is not 1.0.0, or the command adds a present attribute, or removes an absent attribute or property; all other commands are accepted; it never panics.", "quantifier": "every AST and command", "why_tests_cant": "all histories and commands", "anchors": ["semantics/oca-ast/src/validator.rs"]}
{"id": "C11", "title": "Overlay commands on undefined attributes are rejected", "statement": "Applying an ADD overlay command that names an attribute absent from the bundle under construction yields an error naming it (for all overlay kinds that carry attributes), and a rejected command leaves the build state as it was.", "quantifier": "every build state and every overlay command", "why_tests_cant": "all states reachable by any history", "anchors": ["semantics/oca-bundle/src/build.rs: apply_command, from_ast"]}
{"id": "C12", "title": "A build is all-or-nothing, its steps form a chain, and when its result is the last step", "statement": "from_ast succeeds iff every command applies (at least one, or it aborts); then there is one step per command, in order, each step's parent is the previous step's bundle SAID (the first's is the base's SAID or none); on failure all errors of all failing commands are reported in order. The returned bundle serialises like the last step's bundle unless two overlays' digests collide or a frame was given contradictory metadata by two attributes (the code generates the bundle twice with independent hash-map orders; the second exception is shown to happen).", "quantifier": "every base and every command list", "why_tests_cant": "any length of command list", "anchors": ["semantics/oca-bundle/src/build.rs: from_ast"]}
{"id": "C13", "title": "Build errors point at the failing line", "statement": "For an AST produced by the OCA file parser (without FROM), every error returned by from_ast carries the line number and text the parser recorded for the failing command; with FROM the facade's index shift is compensated.", "quantifier": "every parsed file and every failing command", "why_tests_cant": "ranges over all files and error positions", "anchors": ["semantics/oca-bundle/src/build.rs: from_ast", "oca/src/facade/build.rs: parse_and_check_base", "semantics/oca-file/src/ocafile/mod.rs: parse_from_string"]}
{"id": "C14", "title": "The capture base lists exactly the attributes", "statement": "A generated bundle's capture base maps exactly the attributes of the build state to their types, carries the classification (empty text if none), and flags exactly the flagged attributes, each once.", "quantifier": "every build state with typed attributes, every hash-map iteration order", "why_tests_cant": "all states and all iteration orders", "anchors": ["semantics/oca-bundle/src/state/oca.rs: generate_capture_base", "semantics/oca-bundle/src/state/oca/capture_base.rs: CaptureBase::add"]}
{"id": "C15", "title": "Overlays only talk about capture base attributes", "statement": "In every bundle produced by any sequence of accepted commands each overlay maps only attributes present in the capture base. (The names inside the text of a condition are not covered: they may name a removed attribute.)", "quantifier": "every command history, every iteration order", "why_tests_cant": "all histories", "anchors": ["semantics/oca-bundle/src/state/oca.rs: generate_overlays", "semantics/oca-bundle/src/build.rs: apply_command"]}
{"id": "C16", "title": "One overlay per kind, language, target or frame", "statement": "A generated bundle holds at most one overlay for each (kind), (kind, language), link target and frame id.", "quantifier": "every build state, every iteration order", "why_tests_cant": "all states and orders", "anchors": ["semantics/oca-bundle/src/state/oca.rs: generate_overlays"]}
{"id": "C17", "title": "Overlay content is exactly what was set", "statement": "The overlay of a kind (and language/target/frame) exists iff some attribute carries such information, and it maps an attribute to a value iff that attribute carries that value.", "quantifier": "every build state, every iteration order", "why_tests_cant": "all states and orders", "anchors": ["semantics/oca-bundle/src/state/oca.rs: generate_overlays", "semantics/oca-bundle/src/state/oca/overlay.rs: overlay! add", "semantics/oca-bundle/src/state/oca/overlay/*.rs: add"]}
{"id": "C18", "title": "Generated bundles are self-consistent", "statement": "Every generated bundle passes the SAID checks of the semantic validator: bundle, capture base and overlay SAIDs recompute, and every overlay is bound to the capture base SAID.", "quantifier": "every build state, every hash function", "why_tests_cant": "all states", "anchors": ["semantics/oca-bundle/src/state/oca.rs: generate_bundle", "semantics/oca-bundle/src/state/validator.rs: Validator::validate"]}
{"id": "C19", "title": "The SAID does not depend on hash-map iteration order", "statement": "Generating a bundle from the same build state gives the same SAID whatever order the hash maps are iterated in, provided no two attributes give the same frame different metadata (or two overlays of the bundle have the same SAID); and the condition is necessary: in every reachable state that violates it, two iteration orders produce different JSON to be digested.", "quantifier": "every reachable build state and every pair of iteration orders", "why_tests_cant": "iteration order is randomised per process; a test sees one order", "anchors": ["semantics/oca-bundle/src/state/oca.rs: generate_bundle, serialize_overlays", "semantics/oca-bundle/src/state/oca/overlay/attribute_framing.rs: add"]}
{"id": "C20", "title": "Independent ADD commands commute", "statement": "Adding the same attributes, or overlay values for different attributes, in a different order of commands gives the same build state and so the same bundle SAID.", "quantifier": "every build state and every pair of independent commands", "why_tests_cant": "all interleavings of command order", "anchors": ["semantics/oca-bundle/src/build.rs: apply_command", "semantics/oca-bundle/src/state/oca.rs: add_attribute"]}
{"id": "C21", "title": "Tampering is detected", "statement": "If two bundles both pass SAID validation and claim the same SAID, they serialise identically and show the same attributes, classification, flags and overlay contents, or the digest collides on exactly these two bundles. A bundle shows all its overlays except that, of a kind that should occur once, only the last is shown; every bundle the library generates shows all its overlays. Overlays that are not shown are not protected (any correctly signed extra one can be added in front).", "quantifier": "every pair of bundles", "why_tests_cant": "all modifications of all bundles", "anchors": ["semantics/oca-bundle/src/state/validator.rs: Validator::validate"]}
{"id": "C22", "title": "Loading a bundle as a base loses nothing", "statement": "Turning a generated bundle back into a build state and regenerating gives the same bundle SAID, so FROM <said> with no change reproduces <said>.", "quantifier": "every build state reachable by commands, every iteration order", "why_tests_cant": "all states", "anchors": ["semantics/oca-bundle/src/state/oca.rs: From<OCABundle> for OCABox"]}
{"id": "C23", "title": "What to_ast keeps of a bundle", "statement": "For every bundle built from scratch by any accepted commands: to_ast succeeds and building its AST succeeds, with the same capture base (SAID included) and exactly the overlays (SAIDs included) of the kinds other than link and attribute framing; it is the same bundle iff there was no link and no framing. For any bundle all of whose languages have a two-letter code the same holds except that flags are dropped too; with another language to_ast aborts. (The intended claim, that to_ast always rebuilds the bundle, is false: links, framings and flags are dropped.)", "quantifier": "every history of accepted commands, every iteration order", "why_tests_cant": "all bundles", "anchors": ["semantics/oca-bundle/src/state/oca.rs: OCABundle::to_ast", "semantics/oca-bundle/src/build.rs: from_ast"]}
{"id": "C24", "title": "What a later ADD does to an earlier one", "statement": "After an accepted ADD of a label, information text, encoding, format, conformance, cardinality, condition, entry or link for an attribute, the state and every bundle generated from it hold that value; framings are merged scope by scope with the new one winning; META texts and attribute types are overwritten; units and entry codes keep the first value and ignore later ones. Everything else (other attributes, languages, targets, frames, kinds) is untouched. (The intended claim, that the later ADD always wins, is false for units and entry codes.)", "quantifier": "every build state, attribute, value", "why_tests_cant": "all histories", "anchors": ["semantics/oca-bundle/src/state/attribute.rs: Attribute::merge", "semantics/oca-bundle/src/build.rs: apply_command"]}
{"id": "C25", "title": "REMOVE ATTRIBUTE removes every trace", "statement": "After REMOVE ATTRIBUTE x the capture base has no x and no overlay mentions x; all other attributes' data is unchanged; re-adding x starts from a blank attribute.", "quantifier": "every build state and name list", "why_tests_cant": "all histories", "anchors": ["semantics/oca-bundle/src/build.rs: apply_command", "semantics/oca-bundle/src/state/oca.rs: remove_attribute"]}
{"id": "C26", "title": "Classification is last-writer-wins and removable", "statement": "The classification in the bundle is that of the last classification command, empty if it was removed or never set.", "quantifier": "every command history", "why_tests_cant": "all histories", "anchors": ["semantics/oca-bundle/src/build.rs: apply_command"]}
{"id": "C27", "title": "Enforced translations are checked exactly", "statement": "With a non-empty set of enforced languages, validation reports a translation error iff, for some kind (meta, entry, information, label) that occurs in the bundle, the set of overlay languages differs from the enforced set or some overlay of that kind lacks a key another overlay of the kind has.", "quantifier": "every bundle and every language set", "why_tests_cant": "all bundles and sets", "anchors": ["semantics/oca-bundle/src/state/validator.rs: validate_meta, validate_translations"]}
{"id": "C28", "title": "Condition validation rejects self-dependence and never reads outside the capture base for well-formed bundles", "statement": "Validation of a bundle's conditions fails if some attribute's condition depends on itself; if every dependency is a capture-base attribute with a supported type the check does not panic; otherwise it panics.", "quantifier": "every conditional overlay and capture base", "why_tests_cant": "all bundles", "anchors": ["semantics/oca-bundle/src/state/validator.rs: validate_conditional"]}
{"id": "C29", "title": "When bundle JSON loads back to the same bundle", "statement": "For every bundle built from scratch by any accepted commands: writing it as JSON and loading the JSON gives a bundle with the same JSON (and SAID) if and only if every reference among the attribute types is well formed, no META text is named d, capture_base, type or language, and the groups of grouped entry codes are in the order of their names. (The intended claim has no conditions; a META text named type makes loading abort.)", "quantifier": "every history of accepted commands, every iteration order", "why_tests_cant": "all bundles", "anchors": ["semantics/oca-bundle/src/state/oca.rs: serialize_overlays, deserialize_overlays", "semantics/oca-bundle/src/controller.rs: load_oca"]}
{"id": "C30", "title": "History lookup returns the commands of the build", "statement": "After building an OCA file the facade's history of the resulting SAID is exactly the list of its commands with their intermediate SAIDs, provided the intermediate SAIDs are pairwise distinct. (Known false otherwise: a command that does not change the bundle makes the history malformed, and an add/remove pair makes the lookup loop forever.)", "quantifier": "every build on every database", "why_tests_cant": "all command lists and prior database contents", "anchors": ["oca/src/facade/build.rs: build_step", "oca/src/facade/fetch.rs: get_oca_bundle_steps"]}
{"id": "C31", "title": "History survives later builds", "statement": "Building further OCA files, including ones based on the first, never changes the history reported for SAIDs whose operation records the later builds do not rewrite; a FROM build's history is the base's history followed by its own commands.", "quantifier": "every sequence of builds", "why_tests_cant": "all histories of builds", "anchors": ["oca/src/facade/build.rs: build_step", "oca/src/facade/fetch.rs: get_oca_bundle_steps"]}
{"id": "C32", "title": "Operation records decode to what was stored", "statement": "The byte record stored per build step (length-prefixed parent SAID followed by the command) decodes to the same parent and command.", "quantifier": "every parent SAID of length < 256 and every command text", "why_tests_cant": "all byte strings", "anchors": ["oca/src/facade/build.rs: build_step", "oca/src/facade/fetch.rs: get_oca_bundle_steps"]}
{"id": "C33", "title": "Relationship records decode to what was stored", "statement": "The concatenated relationship records (type byte, length byte, SAID) decode to the same list of relationships; decoding never reads past the end for records written by the encoder.", "quantifier": "every list of relationships with SAIDs shorter than 256 bytes", "why_tests_cant": "unbounded lists", "anchors": ["oca/src/facade/explore.rs: Relationship"]}
{"id": "C34", "title": "Relations are symmetric, complete and permanent", "statement": "After any sequence of builds, if object x is reported related to y then y is reported related to x; every built bundle is related to its capture base and overlays, the capture base to every overlay; later builds never remove a relation.", "quantifier": "every sequence of builds", "why_tests_cant": "all histories", "anchors": ["oca/src/facade/explore.rs: add_relations, explore", "oca/src/facade/build.rs"]}
{"id": "C35", "title": "Storage behaves like a map per namespace", "statement": "In-memory and Sled storage: whatever the operation sequence, get returns the value of the last insert with the same namespace and key, and get_all agrees with get. File storage: the same for keys that are plain file names (not empty, not '.' or '..', no '/'). (For path-like keys it is false: a key '../oca/k' of one namespace overwrites key 'k' of another.)", "quantifier": "every operation sequence", "why_tests_cant": "all sequences", "anchors": ["oca/src/data_storage.rs: InMemoryDataStorage, SledDataStorage, FileSystemStorage"]}
{"id": "C36", "title": "Name references are resolved before building", "statement": "After dereferencing, no `refn:` remains in attribute types or link targets, known names are replaced by their SAID, everything else is unchanged, and an unknown name is an error. (Known false for names inside arrays nested two or more deep.)", "quantifier": "every AST and name table", "why_tests_cant": "nesting depth unbounded", "anchors": ["oca/src/local_references.rs: replace_refn_with_refs"]}
{"id": "C37", "title": "A file's name refers to its latest build", "statement": "After a successful build of a file with a name meta, looking up that name gives that build's SAID; names of other files are unaffected; a failed build changes no name.", "quantifier": "every sequence of builds", "why_tests_cant": "all histories", "anchors": ["oca/src/facade/build.rs: build_from_ocafile", "oca/src/facade/mod.rs", "oca/src/local_references.rs"]}
{"id": "C38", "title": "Fetching a bundle with dependencies returns all and only reachable bundles", "statement": "get_oca_bundle with dependencies returns the bundle and a list of the bundles it references, transitively; a missing reference is an error. (References nested two or more arrays deep are not followed.)", "quantifier": "every stored reference graph that is acyclic", "why_tests_cant": "all graphs", "anchors": ["oca/src/facade/fetch.rs: get_oca_bundle, retrieve_all_references"]}
{"id": "C39", "title": "Paging through cached bundles visits each exactly once", "statement": "With a page size at least 1, the pages 1..n concatenated are the full record list in order without duplicates; every page reports the total; pages past the end are empty. Within a page the records come in the order of their identifiers.", "quantifier": "every table content, page size and page number", "why_tests_cant": "all sizes", "anchors": ["oca/src/repositories/oca_bundle_cache_repo.rs: fetch_all", "oca/src/facade/fetch.rs: fetch_all_oca_bundle"]}
{"id": "C40", "title": "Rebuilding is idempotent for the stored bundle", "statement": "Building the same file twice leaves the bundle, capture base and overlay objects stored under the same SAIDs with the same content, and does not duplicate cache entries.", "quantifier": "every file and database", "why_tests_cant": "all states", "anchors": ["oca/src/facade/build.rs: build", "oca/src/repositories/*.rs: insert"]}
{"id": "C41", "title": "FROM an unknown base is ignored", "statement": "Building a file whose first instruction is FROM <said> with an unknown SAID is accepted exactly when the file with a comment in its place is, with the same result and the same effect on the facade; errors of the following lines are reported one line off. (The intended claim, that it is an error, is false of the code: the error is collected but dropped.)", "quantifier": "every file and database", "why_tests_cant": "all databases", "anchors": ["oca/src/facade/build.rs: parse_and_check_base, validate_ocafile"]}
{"id": "C42", "title": "Core model parent chains", "statement": "Each core-model record produced for a build step points to the previous bundle record, to the latest capture-base record and, per overlay kind and language, to the previous overlay record of that key.", "quantifier": "every step list", "why_tests_cant": "any number of steps", "anchors": ["semantics/oca-dag/src/lib.rs: build_core_db_model, apply_step"]}
{"id": "C43", "title": "Version graph children and parents agree", "statement": "In the version graph, after any sequence of adds, x is listed as a child of p iff x was added under p, the stored parent of x is the p of its last add, and the length-prefixed encodings decode to the lists stored.", "quantifier": "every sequence of graph operations", "why_tests_cant": "all sequences", "anchors": ["semantics/oca-dag/src/versioning/mod.rs: Graph", "semantics/oca-dag/src/versioning/bundle.rs"]}
{"id": "C44", "title": "Transformation mapping is the last-wins map of the commands", "statement": "A transformation built from RENAME/LINK commands maps each attribute to the value of the last command naming it, preserving first-mention order; source and target come from the meta block.", "quantifier": "every command list", "why_tests_cant": "any number of commands", "anchors": ["transformation/transformation-file/src/build.rs: from_ast, apply_command"]}
{"id": "C45", "title": "A file's precompiler line decides which parser reads it", "statement": "For a file made of text without -- and #, comments, and meta lines `-- key = value` (any blanks; values words or quoted): the last precompiler value decides - `transformation` sends it to the transformation parser, `semantics` or no precompiler line to the semantics parser, any other value (also these words in quotes) is refused; for every text the outcome is one of these or an error about the meta lines. (Finding, proved: two dashes outside a comment that do not start a meta line - even inside a quoted label - make the facade refuse a file that the semantics parser reads.)", "quantifier": "every file made of such parts; the last clause: every text", "why_tests_cant": "all inputs", "anchors": ["oca-file/src/ocafile/mod.rs: parse_from_string"]}
{"id": "C46", "title": "Attribute types print and parse in OCA file syntax", "statement": "The OCA-file text of an attribute type without name references parses back to the same type at any array nesting.", "quantifier": "every attribute type", "why_tests_cant": "nesting unbounded", "anchors": ["semantics/oca-file/src/ocafile/mod.rs: oca_file_format", "semantics/oca-file/src/ocafile/instructions/helpers.rs: extract_attr_type", "semantics/oca-file/src/ocafile.pest"]}
{"id": "C47", "title": "Exactly which OCA files abort the build", "statement": "Building a file whose text has no backslash returns Ok or Err unless it has no command at all or one of its commands, in the state reached before it, is: REMOVE of META or an overlay; ADD META with an unknown language and some property; ADD LABEL/INFORMATION/ENTRY with an unknown language or ADD LINK without a valid target or ADD ATTR_FRAMING without id, whose first attribute is in the build. In exactly these cases the process aborts. (The intended claim, that building never aborts, is thus false.)", "quantifier": "every text, every base bundle, every build state", "why_tests_cant": "all inputs", "anchors": ["semantics/oca-bundle/src/build.rs: apply_command"]}
{"id": "C48", "title": "Re-applying a command changes nothing", "statement": "Applying an accepted ADD command a second time leaves the build state unchanged, hence the same SAID.", "quantifier": "every build state and ADD command", "why_tests_cant": "all states", "anchors": ["semantics/oca-bundle/src/build.rs: apply_command", "semantics/oca-bundle/src/state/attribute.rs: merge"]}
{"id": "C49", "title": "Printing an AST and parsing the text gives the same commands", "statement": "For every AST whose commands are ones the OCA-file syntax can express (ADD/REMOVE of attributes and classification, ADD of every overlay kind with values that can stand between quotes) and that is consistent command by command, generating the OCA file and parsing it succeeds and returns the same commands in the same order, up to the order of an overlay's properties.", "quantifier": "every AST of any length with any nesting of attribute types, any number of attributes, codes, groups, frames", "why_tests_cant": "infinitely many ASTs; the parser is a backtracking grammar where any text can interact with what follows", "anchors": ["semantics/oca-file/src/ocafile/mod.rs: generate_from_ast, parse_from_string", "semantics/oca-file/src/ocafile.pest", "semantics/oca-file/src/ocafile/instructions/helpers.rs"]}
{"id": "C50", "title": "Building an AST's text is building the AST", "statement": "For every AST the OCA-file syntax can express, printing it, parsing the text and building has the same outcome as building the AST itself, on any base bundle: the same bundle, or the same error messages (apart from the line they name), or both abort.", "quantifier": "every expressible AST, every base bundle, every hash-map iteration order", "why_tests_cant": "all ASTs and orders", "anchors": ["semantics/oca-file/src/ocafile/mod.rs: generate_from_ast, parse_from_string", "semantics/oca-bundle/src/build.rs: from_ast, apply_command"]}
{"id": "C51", "title": "Exporting a bundle as an OCA file and building the file", "statement": "For every bundle produced by any history of accepted commands from scratch, without classification, with at least one attribute and whose texts can stand between double quotes: to_ast, generate_from_ast, parse_from_string and from_ast succeed and return a bundle with the same capture base (but no flags) and exactly the overlays of kinds other than link and framing; with none of these it has the same SAID and JSON, unless two different overlays of the bundle have the same SAID. The conditions are needed: a classification is glued to the last attribute, no attributes prints an incomplete command, quotes are not escaped. generate_from_ast aborts exactly for MODIFY, REMOVE of an overlay and attribute types naming another file, and yields a text otherwise; the file parse_oca_bundle_to_ocafile returns is that text.", "quantifier": "every history of accepted commands, every hash-map iteration order", "why_tests_cant": "all histories, texts and orders", "anchors": ["semantics/oca-bundle/src/state/oca.rs: to_ast, generate_bundle", "semantics/oca-file/src/ocafile/mod.rs: generate_from_ast, parse_from_string", "oca/src/facade/build.rs: parse_oca_bundle_to_ocafile"]}
{"id": "C52", "title": "What a parsed OCA file can contain", "statement": "Every command of a file that parses has one of the forms the syntax names (ADD/REMOVE ATTRIBUTE, ADD CLASSIFICATION, ADD FLAGGED_ATTRIBUTES, ADD/REMOVE META, LABEL ..., FROM), with attribute names, types, language codes, values and references of the shapes the syntax allows; the recorded raw text of every command is a part of the file; the file's meta table only has the keys name, version and precompiler.", "quantifier": "every text", "why_tests_cant": "all texts, any length and nesting", "anchors": ["semantics/oca-file/src/ocafile.pest", "semantics/oca-file/src/ocafile/mod.rs: parse_from_string", "semantics/oca-file/src/ocafile/instructions"]}
{"id": "C53", "title": "The OCA-file parser never aborts without line continuations", "statement": "parse_from_string returns Ok or Err for every text that contains no backslash. (It does abort for some texts with a backslash: a comment inside a continued attribute frame.)", "quantifier": "every text", "why_tests_cant": "all texts", "anchors": ["semantics/oca-file/src/ocafile.pest", "semantics/oca-file/src/ocafile/mod.rs: parse_from_string", "semantics/oca-file/src/ocafile/instructions/helpers.rs"]}
{"id": "C54", "title": "A parsed OCA file can be printed and parsed again", "statement": "For every backslash-free text that parses and whose commands the printer supports (no FROM, no FLAGGED_ATTRIBUTES, no reference by name, no quotes inside values, no REMOVE of overlays), printing the parsed AST gives a text that parses to the same commands, up to the order of properties. (Known false for each excluded command: witnesses.)", "quantifier": "every text", "why_tests_cant": "all texts", "anchors": ["semantics/oca-file/src/ocafile/mod.rs: parse_from_string, generate_from_ast"]}
{"id": "C55", "title": "Transformation files mean their pairs, and no text aborts their parser", "statement": "A transformation file made of blank lines, comments, meta lines and RENAME/LINK ATTRIBUTE lines, with any blanks, parses to exactly its commands in order with the number and text of their lines and to the last value of each meta key; building it gives a transformation that maps exactly the names mentioned, each to what the last pair naming it says, in order of first mention, with source and target from the meta lines; the build aborts iff there are meta lines but not both source and target, or no meta line and no command. For every text at all the parser returns Ok or Err, never aborts, and accepted commands have at least one pair, no duplicate names and names of the syntax. (FROM is in the grammar but refused; LINK needs a blank before ->.)", "quantifier": "every file of such lines; every text for the last part", "why_tests_cant": "all texts, any number of lines, pairs and blanks", "anchors": ["transformation/oca-file/src/ocafile.pest", "transformation/oca-file/src/ocafile/mod.rs: parse_from_string", "transformation/oca-file/src/ocafile/instructions", "transformation/transformation-file/src/build.rs: from_ast"]}
{"id": "C56", "title": "Building from text: free function and facade agree", "statement": "For every text: a transformation file is refused as deprecated by every building entry point. A text is either refused by the grammar or its validation is the validation of its lines. For a text without FROM the facade (whatever was validated and built on it before) returns the same bundle, the same errors, or aborts exactly as the free function build_from_ocafile. The free function builds no file with a FROM, and the facade builds none in which FROM is not the first command. Validating with external references is validating on a facade with those references.", "quantifier": "all texts, all facade histories", "why_tests_cant": "texts and histories are unbounded; tests use a few files on fresh facades.", "anchors": ["oca/src/facade/build.rs: build_from_ocafile, Facade::build_from_ocafile, validate_ocafile"]}
{"id": "C57", "title": "The OCA file of a stored bundle builds the bundle again", "statement": "After building a text (without FROM and without backslash continuations) on a facade with any past, the AST the facade reports for the resulting bundle holds exactly the commands that were built (names replaced by identifiers) and the OCA file it gives out for it, dereferenced or not, parses, has the same commands in the same order, and builds the very same bundle with the same identifier. Conversely, if a reported history contains a command that breaks the rules of the commands before it (a file built FROM a base may add an attribute the base has), the file given out is refused by the parser. More generally, whatever texts were built on the facade and on whatever bases, the file given out for any reported history of writable commands is either refused (exactly when a command repeats what an earlier file already had) or builds, from nothing, a bundle with the SAID asked for and the stored JSON.", "quantifier": "all facades reached by validating and building, all texts, all iteration orders, all amounts of rounds at least the length of the history", "why_tests_cant": "it composes parsing, dereferencing, building, hashing, storing, reading back, printing and parsing again for arbitrary commands; tests sample a few files.", "anchors": ["oca/src/facade/fetch.rs: get_oca_bundle_ocafile, get_oca_bundle_ast, get_oca_bundle_steps", "semantics/oca-file/src/ocafile/mod.rs: generate_from_ast, parse_from_string"]}
{"id": "C58", "title": "FROM continues a build", "statement": "A build of a second list of commands on the bundle that a first build returned ends exactly as one build of the first list followed by the second: same bundle, the same recorded steps after those of the first, or the same error messages, or both abort. The same holds for chains of any number of builds. The only condition is that the commands of the first part describe each frame (ATTR_FRAMING id) with the same metadata; without it the two can give different identifiers.", "quantifier": "all pairs of command lists, all chains of builds, all hash iteration orders in every build", "why_tests_cant": "the claim is an equivalence between two executions over every pair of command lists; a test compares a few files and one hash order", "anchors": ["semantics/oca-bundle/src/build.rs:from_ast", "semantics/oca-bundle/src/state/oca.rs:From<OCABundle> for OCABox", "semantics/oca-bundle/src/state/oca.rs:generate_bundle"]}
{"id": "C59", "title": "Loading any JSON document as a bundle", "statement": "Whatever JSON document is loaded as an OCA bundle: if loading succeeds then every SAID in it (bundle, capture base, overlays, and those inside attribute types) is well formed, every language is a known one, and the overlays are those of the document in document order. A document in which a member of the bundle or of the capture base is repeated is refused; members that are not the bundle's own are ignored; member order does not matter. A document that is fine except for one unreadable overlay aborts the program instead of returning an error. A bundle or capture base given as an array of exactly its members in order loads as the object does; an array of another length is refused.", "quantifier": "all JSON documents", "why_tests_cant": "JSON documents are unbounded; tests load a handful of documents the library wrote itself.", "anchors": ["semantics/oca-bundle/src/state/oca.rs: OCABundle, DynOverlay::deserialize, deserialize_overlays", "semantics/oca-bundle/src/state/oca/capture_base.rs: CaptureBase"]}
{"id": "C60", "title": "What validates can be stored", "statement": "Whatever files were validated and built on a facade before, in any order: if validating a file succeeds then storing its build succeeds too (it neither fails nor aborts, in spite of the unwraps in the storing code); so building a file ends exactly as validating it does: same bundle, same errors, and it aborts only if validating aborts.", "quantifier": "all histories of a facade, all files", "why_tests_cant": "the storing code reads back what earlier builds stored (relations, types) and unwraps it; no finite set of histories shows that no unwrap fails.", "anchors": ["oca/src/facade/build.rs: build, build_cache, build_meta, build_models, add_relations", "oca/src/facade/explore.rs"]}
{"id": "C61", "title": "Histories replay", "statement": "Building from a stored bundle loaded back (FROM) continues exactly as if the commands of both files had been in one file: same success or the same error messages, and a successful build ends with the same SAID and JSON. Whatever was built on a facade, on whatever bases and in whatever order, every history it reports can be replayed: building its commands from nothing succeeds, each step has the parent, SAID and JSON shown, and the last bundle has the SAID asked for and the JSON stored.", "quantifier": "all command lists of the two files; all sequences of validates and builds on a facade, all SAIDs whose history is reported, all iteration orders of hash maps", "why_tests_cant": "ranges over all histories of builds on a store, chains of FROM of any length and all hash-map iteration orders", "anchors": ["oca/src/facade/fetch.rs:get_oca_bundle_steps", "oca/src/facade/build.rs:parse_and_check_base", "semantics/oca-bundle/src/build.rs:from_ast", "semantics/oca-bundle/src/state/oca.rs:From<OCABundle> for OCABox"]}
{"id": "C62", "title": "Single objects, all names and search hits agree with what was built", "statement": "After any sequence of validations and builds: get_oca_objects for an identifier under which no step of any build produced a capture base or overlay is the error \"No OCA Object found\"; an object of a built bundle is returned with the JSON it was built with, its identifier and its kind (unless two different things built share that identifier), in the order asked for; an object that only occurred in an intermediate step makes the facade abort, since its kind is not recorded. fetch_all_refs gives exactly the names of accepted files, each with the identifier of the last accepted file of that name. The search index holds exactly the names and descriptions of the meta overlays of built bundles, and the records of a search are the bundles with the identifiers of the hits, in order, and never abort when the bundle of each build is the result of one of its steps (which holds unless frame metadata contradict each other or digests collide).", "quantifier": "every sequence of validations and builds on a new facade, every identifier, every list of identifiers, every list of index hits, every iteration order of the hash maps, every JSON library meeting the stated law", "why_tests_cant": "the answer depends on the whole history of builds and on which steps shared an identifier; a test covers one history and one identifier", "anchors": ["oca/src/facade/fetch.rs: Facade::get_oca_objects, fetch_all_refs, search_oca_bundle", "oca/src/facade/build.rs: Facade::build", "oca/src/facade/build.rs: build_meta", "oca/src/repositories/oca_bundle_fts_repo.rs"]}
{"id": "C63", "title": "build_oca on a plain key-value store: outcome, records, and silently lost commands", "statement": "oca_dag::versioning::ocafile::build_oca without FROM succeeds exactly when there is at least one command, every command's JSON text has at most 255 bytes and no command aborts; otherwise it panics, and it never returns an error. On success it returns the bundle of the last state and stores, for every step, under oca.<SAID> the bundle JSON and under oca.<SAID>.operation the SAID before the step and the command (the last step with a SAID wins), and nothing else. When the ordinary build accepts all commands the result and the chain of SAIDs are the same. A rejected command is not reported and everything before it is lost: the result is that of the commands behind it alone. A command that changes nothing overwrites the record of its bundle with one that names the bundle itself as its predecessor. FROM a bundle stored by an earlier build_oca continues it as if all commands were one build; an unknown SAID is reported, a name is refused, and whatever was built before a FROM is dropped.", "quantifier": "all command lists, stores, hash iteration orders, JSON serialisers that round trip, digests", "why_tests_cant": "The two tests are ignored and only print; the claims range over all command lists and stores, and over where in the list a command is rejected.", "anchors": ["semantics/oca-dag/src/versioning/ocafile.rs: build_oca", "semantics/oca-dag/src/data_storage.rs: DataStorage", "semantics/oca-bundle/src/build.rs: apply_command"]}
{"id": "C64", "title": "A package of a model and its transformations is written and loaded without loss", "statement": "oca_rs::facade::bundle::Bundle: what is added (one model, the last one counts; any number of transformations, in order) is what load_oca gives back from encode()'s text: a model with the same SAID and the same JSON, the same transformations in the same order, and the package's SAID; encoding what was loaded gives the same text. Every transformation that was built or was read from any JSON can be written and read back unchanged. The package SAID stands for its content: equal SAIDs mean the same model JSON and the same transformations, or a digest collision. Encoding a package without a model aborts.", "quantifier": "every model whose JSON is storable (in particular the result of every successful build) with at most 123 array levels in its types, every list of transformations, every JSON value read as a transformation", "why_tests_cant": "ranges over all bundles, lists of transformations and JSON values; a test packs one example", "anchors": ["oca/src/facade/bundle.rs: load_oca, Bundle::add, Bundle::encode", "transformation-file/src/state/mod.rs: Transformation"]}
{"id": "C65", "title": "A whole syntax tree survives its JSON", "statement": "Writing an OCA syntax tree (or a transformation tree) as JSON and reading it back gives the same tree (version, commands, line records, metadata), in whatever order the metadata is written, exactly when every command reads back and the line records are those of a program; a tree read from any JSON, if it holds no attribute mapping, is stable from then on; two trees with the same JSON are equal. For the tree parsed from a text this is so exactly when no plain text value in it has the form of a reference. Attribute mappings are read under one name and written under another, which is not read. Reading a transformation tree never aborts. A JSON document is read as a command exactly when it is an object of three entries: type first or last, object_kind directly followed by the content, whatever the content's key; so a command with its members in another order is refused. Reading a command or a whole tree aborts only on an empty array used as an attribute type, and does so if nothing else is wrong.", "quantifier": "all trees, all JSON documents, all iteration orders of the metadata, all texts", "why_tests_cant": "ranges over all trees, all JSON values including hostile ones, and all hash orders", "anchors": ["semantics/oca-ast/src/ast/mod.rs: OCAAst, Command, CommandMeta serde", "transformation/ast/src/ast/mod.rs: TransformationAST, Command, CommandVisitor"]}
{"id": "C66", "title": "Storing a file can be cut short at any write", "statement": "A process that stores a file may be killed after any of its writes, and the machine may crash so that each storage keeps some first part of its writes. Whatever is left: no bundle, history, name or table row that was there before is lost or changed (but for the identifiers the file itself writes and its own name); a bundle is either not known or fetched whole; every name stands for a valid identifier; relations are all those of the files stored to the end and never one that no file stands for; any file can still be stored. After a kill, a step of the file is either unknown or has its whole history. Storing the same file again, in any hash-map order, ends in what storing it once without a crash ends in. The limits are part of it: there are kill points at which a bundle is listed but cannot be fetched, at which a search hit aborts, at which asking for a history aborts, and machine crashes that keep a bundle and lose its history.", "quantifier": "every file, every facade reached by any sequence of completed and interrupted stores, every crash point (a prefix of the writes; for a machine crash one prefix per storage), every hash-map order of the first and of the repeated run", "why_tests_cant": "A test would have to kill the process at every write of every build on every state; crash points, states and hash orders are unbounded, and the guarantee is about all of them together.", "anchors": ["oca/src/facade/build.rs: Facade::build_from_ocafile, Facade::build, build_cache, build_meta, build_step, build_models", "oca/src/facade/explore.rs: insert_oca_objects_metadata, add_relations", "oca/src/data_storage.rs: SledDataStorage::insert", "oca/src/repositories: insert", "oca/src/facade/fetch.rs: get_oca_bundle, get_oca_bundle_steps, search_oca_bundle"]}
{"id": "C67", "title": "Searching pages through every bundle that matches, once", "statement": "On a facade on which files were stored, for any query the full-text index accepts: page i+1 of search_oca_bundle holds min(limit, what is left) records; every page (also past the end) reports the number of distinct bundles with a matching row; the pages together hold each such bundle exactly once, however many of its rows (languages) match, and no other; each record is the bundle kept under the identifier, with snippet and score of one of its matching rows, and that row shows a name and description of a bundle that was built; scores do not grow along the pages. Page 0 and a query the index refuses abort. One matching bundle whose snippets are not regular expressions (a name with a lone bracket), or that is not kept under its identifier (a process killed while storing it), makes the page where it would be abort. The scope of a record is what the pattern made from the snippet captures in the two lines meta_overlay:<name> and meta_overlay:<description> of the row, empty if it does not match. What is looked for in a record to find the scope of a hit is its snippet without the marks, with anything before or after it where the snippet is cut off.", "quantifier": "all histories of stored files, all full-text indexes (match, rank, snippet, choice of the row of a group, order of ties), queries, languages, page sizes and pages", "why_tests_cant": "What is found depends on everything stored before; that pages neither repeat nor lose a bundle must hold for every page size and every way the database breaks ties and picks rows of a group.", "anchors": ["oca/src/repositories/oca_bundle_fts_repo.rs: search, get_scope", "oca/src/facade/fetch.rs: search_oca_bundle"]}
{"id": "C68", "title": "What a file makes of its base", "statement": "A file that starts with FROM extends the bundle found under that identifier. An attribute has the type of the last ADD ATTRIBUTE that names it after the last REMOVE; if the file names it in neither, the type it has in the base. A label, information, link, format, encoding, conformance, cardinality, condition or entry is what the last command to speak of it says, and what the base tells if the file does not speak of it and does not remove the attribute. Units and entry codes are taken once: what the base (or the first command) gives is kept until the attribute is removed. Frames are merged scope by scope, meta pair by pair, the classification by the last command. An attribute of the base can only be lost if the file itself adds and removes it; a flag never comes from the file. The base that is used is well made: one overlay per kind and language, target or frame, all about attributes of the capture base.", "quantifier": "all texts, histories of builds, bases, attributes, languages, frames, hash orders and JSON serialisers", "why_tests_cant": "The rule for an attribute depends on every command of the file in order and on everything in the base; a test fixes one base and one file.", "anchors": ["oca/src/facade/build.rs: parse_and_check_base", "semantics/oca-bundle/src/build.rs: from_ast, apply_command", "semantics/oca-bundle/src/state/attribute.rs: merge", "semantics/oca-bundle/src/state/oca.rs: From<OCABundle> for OCABox, generate_bundle"]}
{"id": "C69", "title": "Building with the calls of the library", "statement": "A program that builds a bundle without OCA files, with Attribute::new, the setters, Attribute::merge and the calls of OCABox (add_attribute, remove_attribute, add_meta, add_classification, remove_classification), gets exactly what it set. A setter changes what is said in one place (kind, and language, target or frame) and nothing else. After add_attribute of an existing name the bundle says about it what it said before joined with what the given attribute carries: the given values win, links and frames are replaced all together, a unit and entry codes that are there stay, the flag of the given attribute is dropped; other attributes, meta and classification are untouched. remove_attribute takes away the attribute, its flag and all that was said of it. Adding the same attribute twice is adding it once, and calls on different names commute. Every state such calls reach gives a bundle with valid SAIDs, one overlay per kind and language, target or frame, and overlays that speak only of attributes of the capture base.", "quantifier": "every attribute made with any sequence of setters and merges, every build state reached from a new one or a loaded bundle by commands and calls in any order, every map iteration order", "why_tests_cant": "the calls can be made in any number and order on any state; a test shows one sequence", "anchors": ["semantics/oca-bundle/src/state/attribute.rs: Attribute::new, set_flagged, set_attribute_type, merge", "semantics/oca-bundle/src/state/oca.rs: OCABox add_attribute, remove_attribute, add_classification, remove_classification, generate_bundle", "semantics/oca-bundle/src/state/oca/overlay/*.rs: set_label, set_information, set_entry, set_link, set_condition, set_framing, add_meta", "semantics/oca-bundle/src/state/oca/overlay.rs: setters"]}
{"id": "C70", "title": "Looking up a history after any use of a facade", "statement": "Whatever files were validated and built on a facade, in whatever order and on whatever bases, looking up the history of any identifier goes one of exactly four ways, which can be told from the steps built: refused with 'No history found' if no step had this result; the lineage of the identifier (the last step with this result, before it the last step with the result that one started from, and so on down to a step that started from nothing), with its commands, parents and results; refused as 'Malformed history' exactly when the way back meets a step that changed nothing; never ending exactly when the way back goes round in a circle. It never aborts. If steps with equal results always started from the same bundle (no result comes up twice, or only because files are built again) every result has a history.", "quantifier": "every sequence of validations and builds of storable commands on a facade, every identifier", "why_tests_cant": "which of the records of different builds overwrite each other depends on the whole sequence of builds; a lookup that never ends can not be observed by a test", "anchors": ["oca/src/facade/fetch.rs: Facade::get_oca_bundle_steps, extract_operation", "oca/src/facade/build.rs: Facade::build, build_step, validate_ocafile", "semantics/oca-bundle/src/build.rs: OCABuild, OCABuildStep"]}
{"id": "C71", "title": "Formatting an OCA file is final, except for META", "statement": "Reading an OCA file and printing what was read (the formatter) is idempotent: the printed text parses, and printing that again gives the very same text, for every file the printer supports in which no META command has two or more properties besides the language. However often a file is printed and read, it can be printed and read once more and builds the same bundle. (Known false otherwise: each round moves the last property of a META to the front; after as many rounds as it has properties the order is the first one again.)", "quantifier": "every backslash-free text / every printable AST, any number of rounds", "why_tests_cant": "the fixed point must hold for every file and every number of rounds; the META rotation only shows for two or more properties", "anchors": ["semantics/oca-file/src/ocafile/mod.rs: generate_from_ast, parse_from_string", "semantics/oca-file/src/ocafile.pest"]}
{"id": "C72", "title": "The OCA file of a bundle carries it to another repository", "statement": "Whatever was built on a facade A from texts, on whatever bases: the OCA file A gives out for a bundle whose history can be written down and parsed can be built on any other facade B with any past and any iteration orders. It validates and is stored, B then holds under the same SAID byte for byte the JSON A holds, B reports a history with the same commands, parents, intermediate SAIDs and JSON, and gives out the very same file (unless a META has several properties, C71).", "quantifier": "all pasts of both facades, all bundles whose history is reported, all iteration orders on both sides", "why_tests_cant": "two independent unbounded pasts and hash orders; the identity must hold byte for byte for all of them", "anchors": ["oca/src/facade/fetch.rs: get_oca_bundle_ocafile, get_oca_bundle_steps", "oca/src/facade/build.rs: validate_ocafile, build, build_step", "semantics/oca-file/src/ocafile/mod.rs"]}
{"id": "C73", "title": "Comments, blank lines and meta lines have no meaning for the commands of a file", "statement": "A file made of commands as the printer writes them, FROM lines, comments, blank lines and meta lines, in any number and order, is parsed to exactly its commands in their order and to the last value of every meta key; if some command breaks the validation rules (adding a present attribute, removing an absent one) the whole file is refused by the validation. So two files with the same commands are the same to every later step. Through the entry point for all kinds of file the same holds when no command contains # or --. MODIFY is never accepted.", "quantifier": "all lists of lines of these kinds (any commands the printer supports, any texts of comments, any numbers of blanks), all texts after MODIFY", "why_tests_cant": "The interplay of multi-line commands, blank lines and comments in a PEG without white space rule has unboundedly many cases; a blank line after a multi-line frame is swallowed by the command before it.", "anchors": ["semantics/oca-file/src/ocafile.pest: file, commands, comment_line, empty_line, meta_comment_line, modify", "semantics/oca-file/src/ocafile/mod.rs: parse_from_string", "oca-file/src/ocafile/mod.rs: parse_from_string"]}
{"id": "C74", "title": "What stands where in the JSON of a bundle", "statement": "A program in another language that reads the JSON of a bundle by its member names finds exactly what the bundle says: `d` is the identifier; `capture_base.attributes` maps each attribute to its type (Text, Numeric, Boolean, Binary, DateTime, refs:..., refn:..., or an array around one of them), `capture_base.classification` and the sorted `flagged_attributes` are those of the bundle; `overlays` has one member per kind of overlay there is, an array ordered by identifier for labels, information, entries, meta, links and framings, a single object for the others; each overlay carries its identifier, that of the capture base and its type; the document tells about an attribute exactly the label, information, entry, entry codes, link, format, encoding, conformance, cardinality, unit, condition with dependencies and frames that the bundle tells (entry codes of a list in sorted order). Hence it says what the last command to speak of it said.", "quantifier": "all bundles generated from any build state or loaded, all attributes and facts, all hash orders", "why_tests_cant": "The claim is an equivalence between a whole document and a whole build state, for every set of attributes, languages, frames and iteration order; a test can only compare some documents.", "anchors": ["semantics/oca-bundle/src/state/oca.rs: serialize_overlays, OCABundle", "semantics/oca-bundle/src/state/oca/capture_base.rs", "semantics/oca-bundle/src/state/oca/overlay/*.rs: Serialize"]}
{"id": "C75", "title": "The layout of an OCA file has no meaning", "statement": "Letter case of keywords, blanks, tabs, line breaks after a backslash, single or double quotes or none where a bare word is allowed, comments after commands, and \\n or \\r\\n line ends do not change what a file means: every layout of the same commands and meta lines that the grammar knows is read to exactly those commands in order and the last value of each meta key, or refused by the validation when a command breaks the rules; so two layouts of the same content are both read to the same result or both refused. The last line needs no line break. The limits: a command may not be indented, and after the last command of a file without line break no blanks may follow unless the command adds an overlay; both make the grammar refuse the file. A comment line inside a continued ADD ATTRIBUTE is taken for an attribute with an empty name (finding 25). Two layouts of the same commands and meta lines build the same bundle and leave the facade in the same state, or both fail or both abort. This is for ADD ATTRIBUTE, ADD CLASSIFICATION, the twelve overlays of key-value pairs, REMOVE ATTRIBUTE, REMOVE CLASSIFICATION, FROM, comments, blank and meta lines; ATTR_FRAMING and FLAGGED_ATTRIBUTES are not among them (a FLAGGED_ATTRIBUTES line is read with its layout, and framing takes the line break after it), nor are REMOVE META and REMOVE LABEL, which never build (C82).", "quantifier": "every list of lines in every layout (every keyword spelling, every gap, every quoting, every number of attributes, pairs, codes and groups, array types of every depth), every environment and every set of Unicode letters", "why_tests_cant": "the layouts of one file are infinitely many and combine freely; a parser rule that absorbs or leaves one blank too many shows only in combinations (a bare UNIT value before a tab, a quoted value before a comment, an overlay at the end of the file)", "anchors": ["semantics/oca-file/src/ocafile.pest", "semantics/oca-file/src/ocafile/mod.rs: parse_from_string", "semantics/oca-file/src/ocafile/instructions/add.rs", "semantics/oca-file/src/ocafile/instructions/remove.rs", "semantics/oca-file/src/ocafile/instructions/helpers.rs"]}
{"id": "C76", "title": "Errors of a build name the refused command, and the line number is the line of the file when each line before holds one thing", "statement": "When a file, in whatever layout, is refused by the build, every error carries the source text of a command of the file that was refused with that message in the state the commands before it left, and its line number is one more than the count of the lines before, in which a comment or blanks behind a command or a meta pair count once more and a continued command counts once. So when the lines before are neither continued nor followed by a comment the number is the line of the file. The same holds for a file that starts FROM a bundle the facade has. When the facade does not have that bundle the error carries number and text of the command before the refused one.", "quantifier": "every layout of a file (case, blanks, line ends, continuations, comments), every facade, every error reported", "why_tests_cant": "the number depends on everything that stands before the command in the file, which can be any list of lines in any layout", "anchors": ["semantics/oca-file/src/ocafile/mod.rs parse_from_string", "semantics/oca-file/src/ocafile.pest", "semantics/oca-bundle/src/build.rs from_ast", "oca/src/facade/build.rs parse_and_check_base"]}
{"id": "C77", "title": "Standards in a loaded bundle are valid URNs in lower case", "statement": "A document of a standard overlay is read exactly when each of its texts, put in lower case, is a URN of a namespace the library knows with a name valid there; the overlay then holds the lower case texts, and what was read is read again unchanged. A document that writes a standard with a capital letter under the right identifier is read as an overlay whose identifier no longer fits, so the validation refuses the bundle.", "quantifier": "every standard overlay document: any attributes, any texts, any version; every bundle that holds the overlay", "why_tests_cant": "the texts and their number are unbounded, and validity and lower case come from libraries", "anchors": ["semantics/oca-bundle/src/state/standard.rs Standard", "semantics/oca-bundle/src/state/oca/overlay/standard.rs StandardOverlay", "semantics/oca-bundle/src/state/oca.rs DynOverlay deserialize", "semantics/oca-bundle/src/state/validator.rs validate"]}
{"id": "C78", "title": "A language given to a search does not filter", "statement": "Searching the stored bundles for a word gives, over the pages, the same bundles and on every page the same total whatever language is passed, or none: exactly the bundles that have the word in a name or a description of theirs, in whatever language, each once. The word is not looked for among the language codes.", "quantifier": "every history of successful builds, every word of letters and digits, every language code and none, every page size and number of pages, every full-text index that reads the column, AND, NOT, OR and bracket syntax as FTS5 documents it, and every notion of a word being in a text", "why_tests_cant": "The query is text assembled for another engine; tests search a handful of words in one language. That no language ever hides or adds a bundle has to hold for all words, languages and tables.", "anchors": ["oca/src/repositories/oca_bundle_fts_repo.rs: search", "oca/src/facade/fetch.rs: search_oca_bundle"]}
{"id": "C79", "title": "A bundle of any origin as a base", "statement": "Loading a bundle as a build state (as FROM does) aborts exactly when it flags a name that is not one of its attributes, or has an overlay (other than meta, attribute mapping, standard, subset and entry code mapping) about such a name, a condition with a number for which it has no name (or whose numbers are not ASCII digits, or with no list of names), or a framing overlay without a frame id; it never ends with an error. If it does not abort, the bundle generated from the loaded state has the same attributes, types, classification and flags, and tells: of encodings, formats, conformances, cardinalities, units, entry codes, entries, labels, information and links exactly what the last overlay of the loaded bundle telling such a fact (in that language, for that target) tells; the condition of the last overlay having one for the attribute, read with its names and numbered again; each scope of a frame as the last overlay giving it, with the metadata of that overlay; each meta pair as the last overlay of that language having the key. Attribute mappings, standards, subsets, entry code mappings, categories and category labels are not kept. A build on such a base gives what the last command to speak of a thing says, and otherwise what the bundle just described tells.", "quantifier": "every bundle whatever (any overlays in any number and order, any conditions), every attribute, fact, frame, scope, language and meta key, every iteration order of maps", "why_tests_cant": "bundles written by other programs can have any number of overlays of a kind in any order, and any conditions; a test loads one", "anchors": ["semantics/oca-bundle/src/state/oca.rs: From<OCABundle> for OCABox", "semantics/oca-bundle/src/state/oca.rs: OCABox::generate_bundle", "semantics/oca-bundle/src/state/oca/overlay/conditional.rs: set_condition", "semantics/oca-bundle/src/state/oca/overlay/attribute_framing.rs: set_framing"]}
{"id": "C80", "title": "Validating a bundle of any origin", "statement": "Validating a bundle, wherever it comes from and whatever it holds, aborts exactly when some condition of its first conditional overlay cannot be checked: it has no list of names, or (its attribute not being in that list) a name is not an attribute of the capture base with a supported type, or a number in the condition has no name. If it does not abort, a condition whose list names its own attribute is reported as such, and one whose text, with each number replaced by the stand-in value of the attribute it numbers, the interpreter refuses is reported as invalid. If any condition is reported, these reports are all there is. Otherwise the reports are exactly: the bundle, capture base or overlay whose identifier is not the digest of its content, an overlay bound to another capture base, and, if languages are enforced, an overlay kind in a language not enforced, an enforced language missing, and a key translated in one language of a kind and not in another. Validation accepts exactly when none of these apply. Conditions of a second conditional overlay are never checked.", "quantifier": "every bundle (any attributes, overlays, several conditional overlays, conditions with any text and any lists of names), every list of enforced languages, every interpreter and digest", "why_tests_cant": "The tests validate a handful of bundles built by this program; what is reported for arbitrary documents, and that nothing else is ever reported, is a claim about all of them.", "anchors": ["semantics/oca-bundle/src/state/validator.rs: Validator::validate, validate_conditional, validate_translations"]}
{"id": "C81", "title": "The commands of a bundle of any origin", "statement": "Exporting a bundle, wherever it comes from, as commands aborts exactly when some overlay has a language without a two letter code or a condition without a reading (no list of names, or a number past its end), and otherwise gives one command for the capture base and one for each overlay of eleven kinds, in order, saying exactly what the overlay says; overlays of the other kinds give none. Building the commands aborts exactly when a meta overlay has a pair named `lang` that is no two letter code, besides another pair; otherwise it ends with an error exactly when some exported overlay names something that is no attribute; otherwise it succeeds. The bundle built has the same attributes, types and classification, nothing flagged, only overlays of those kinds; each fact is what the last overlay says of the attribute (for a unit or entry codes: the first), conditions renumbered; the pairs of a meta overlay go to its language or, if it has a pair named `lang`, to that one. If the names and texts of the bundle can be written (an attribute, no classification, overlays of version 1.1 with texts without double quotes and no meta pair named lang), the OCA file of the bundle is the text of these commands, reads back as them, and building it has the same outcome, on any base.", "quantifier": "every bundle (any capture base, any list of overlays in any order with any content), every iteration order of the maps while exporting and while building, every digest", "why_tests_cant": "The tests export bundles this program has built, where each kind of overlay occurs once per language and every name is an attribute; that the commands of any document say what it says, and when not, is a claim about all documents.", "anchors": ["semantics/oca-bundle/src/state/oca.rs: OCABundle::to_ast", "oca/src/facade/build.rs: parse_oca_bundle_to_ocafile", "semantics/oca-bundle/src/build.rs: from_ast, apply_command"]}
{"id": "C82", "title": "Instructions that do nothing, and instructions that always abort", "statement": "ADD FLAGGED_ATTRIBUTES is accepted by the syntax and has no effect: leaving any such commands out of a list of commands gives a build that ends the same way (same bundle, same messages or abort), as long as there is a base or another command; so whatever files a repository has been given, no attribute is flagged in any bundle it built, at any step, nor in any bundle it finds. What the parser reads from such a line is one name: the whole list as it stands. REMOVE META and REMOVE LABEL are accepted by the syntax, but the language and the names are forgotten (only two constant commands are ever read) and building any list of commands with one of them aborts, on any base, so that no file with one is ever built in any repository.", "quantifier": "every list of commands, every base, every order of the hash maps, every text, every repository and every history of files", "why_tests_cant": "That an instruction never has an effect is a statement about all command lists, bases and repositories; a test sees a few.", "anchors": ["semantics/oca-file/src/ocafile/instructions/helpers.rs: extract_flagged_attrs (479-496)", "semantics/oca-file/src/ocafile/instructions/remove.rs: RemoveInstruction::from_record, extract_properties_pairs, extract_attribute_pairs (13-116)", "semantics/oca-bundle/src/build.rs: apply_command (123-150, 557-561)", "oca/src/facade/build.rs: validate_ocafile, parse_and_check_base"]}
{"id": "C83", "title": "Bundles of build states put together by hand", "statement": "The fields of attributes and build states are public, so a program may fill them in as it likes. Generating a bundle from any such state aborts exactly when an attribute has no type, never ends with an error, and gives identifiers that are the digests of their content. If no frame scope has metadata named frame_id, the bundle tells of each attribute exactly what it carries (encoding, format, conformance, cardinality, unit, condition with its names, entry codes, entries, labels, information, links, frames), one overlay per kind and language, target or frame; a category label is written exactly when the attribute also has a label in that language; a condition whose list of names was left out is written without one, and validating that bundle aborts. Every attribute mapping given becomes an overlay, in the order given and before all others, but only the last is written to JSON: the document and the identifier do not depend on the others. Standards, mappings and entry code mappings of attributes are never written. With metadata named frame_id an attribute ends in a frame it was not put in, which one depending on the iteration order of maps.", "quantifier": "every value of every field of every attribute and of the build state, every map iteration order, every digest", "why_tests_cant": "Tests build a few states with the setters; the claim is about every combination of public fields, including those no setter makes.", "anchors": ["semantics/oca-bundle/src/state/oca.rs: OCABox::generate_bundle, generate_overlays, add_attribute_mapping, serialize_overlays", "semantics/oca-bundle/src/state/oca/overlay/label.rs: add_category_label, LabelOverlay::add", "semantics/oca-bundle/src/state/oca/overlay/attribute_framing.rs: AttributeFramingOverlay::add", "semantics/oca-bundle/src/state/attribute.rs: merge"]}
{"id": "C84", "title": "Several threads may store bundles in the same storages", "statement": "Let several threads, each with its own facade on the same storages, store bundles (with or without a name), their single reads and writes coming in any order, from any state that such threads (even killed ones, or a crash of the machine that left each storage as it was at a different point) left. No thread ever fails, and no order of turns is endless. At any moment every bundle, object, operation and name that can be read is the old one or, whole, what one of the jobs records; explore answers even if other threads write between its two reads, and never reports a relation that no bundle stands for. When all threads are done, if the jobs do not contradict each other, the storages hold the same records and rows as after the same jobs one after the other in any order; the relations of an object that is in the bundles of one thread only are exactly the old ones and those the bundles stand for. The relations of an object that two threads' bundles share can be lost (a concrete run shows it). A thread without others does exactly what build does, and what a validation gives is what threads may store. Storing a bundle again always succeeds and gives its objects all their relations back. While a thread stores a build, other threads meet exactly the states a killed process can leave; in particular a search that finds the bundle, or a lookup of the history of a step's result, can abort at the wrong moment. The starting states may also have been left by jobs of which any writes failed. Starting states may also have lost any of the three storages.", "quantifier": "all numbers of threads, lists of jobs per thread, builds of any commands and bases, interleavings of single reads and writes, starting states reached by earlier (also killed) threads, lookups at any moment", "why_tests_cant": "the number of interleavings of even two builds is astronomically large, and a test runs the few that the scheduler happens to choose", "anchors": ["oca/src/facade/build.rs: Facade::build, build_cache, build_meta, build_step, build_models", "oca/src/facade/explore.rs: insert_oca_objects_metadata, add_relations, explore", "oca/src/data_storage.rs: DataStorage, SledDataStorage"]}
{"id": "C85", "title": "A history can be followed while others write", "statement": "Files are validated against the storages at any moment and stored by any number of threads, each at its own pace; threads may be killed. At any moment looking up a bundle finds nothing or a whole bundle with the identifier asked for, and what was found once is found at every later moment. If a bundle can be fetched, get_oca_bundle_steps for it never misses a record and never aborts, however the storages change between its reads: it keeps reading, or it meets a step that changed nothing (its 'malformed history' error), or it gives steps of which the first has no parent, each other begins at the bundle the one before made, and the last made the bundle asked for. (After a crash of the machine, rather than of a thread, this fails: C66.)", "quantifier": "all sequences of validations, turns of threads and kills, from empty storages, any files (whose commands survive JSON), any base, any reader and any change of the storages between its reads, any number of rounds", "why_tests_cant": "it is about every moment of every interleaving of any number of writers with a reader; tests run a few", "anchors": ["oca/src/facade/fetch.rs: Facade::get_oca_bundle_steps, get_oca_bundle", "oca/src/facade/build.rs: build_step, parse_and_check_base, validate_ocafile"]}
{"id": "C86", "title": "When writes fail: nothing is lost, and a build that returns has recorded everything", "statement": "Let any of the writes that storing a bundle (with or without a name) makes fail, a failed write leaving nothing. Storing never returns an error. If it returns, every bundle, history, object, core model and name is recorded as if no write had failed, whatever attempts at the same job came before and however they ended. A record that cannot be written ends it at once by an abort, and it aborts only then or when an overlay's metadata cannot be written. Whatever fails and however it ends, every bundle, history, name and row that was there is still there unchanged, and every record under any key is the old one or, whole, one of the job's; explore answers for every object, loses no relation, and a new one is one that the bundle stands for. Storing the job once more without failures succeeds, and then each object has exactly the relations it had before the first attempt and those that the bundle stands for. Rows can be lost without a sign (the bundle is then in no listing and no search), and a single failed write can make all relations of the bundle missing without a sign. When no write fails this is the ordinary build.", "quantifier": "all builds, names, sets of failing writes, starting states, numbers of earlier attempts, and ends of these attempts", "why_tests_cant": "a test would have to make each of the many writes of a build fail, in each combination and after each history; the storages used in tests do not fail at all", "anchors": ["oca/src/facade/build.rs: Facade::build, build_from_ocafile, build_cache, build_meta, build_step, build_models", "oca/src/facade/explore.rs: insert_oca_objects_metadata, add_relations", "oca/src/data_storage.rs: DataStorage::insert"]}
{"id": "C87", "title": "When a storage is lost: what is still given, and how it comes back", "statement": "The database, the cache and the SQLite tables are three storages that the caller supplies; each may be in memory only, or be deleted. Whichever of them are lost, and whatever bundles were stored: storing the same builds again, in the same order, succeeds and brings all of it back: the same rows in the same order, every bundle, object, history, name and core model record, and explore knows the same objects with the same relations. If the cache is among the lost ones, validating and building the same files again in the same order (hash maps iterated alike) gives the same builds, every FROM finding its base again. Until then: with the tables lost only the listings and searches change, and are empty (or abort where they must). With the database lost, bundles, listings and searches are as before, every history is reported as not found, no name and no relation is known, and asking for a single object that is there aborts. With the cache lost, every bundle and object is reported as not found, while listings, names and explore are as before; but asking for a history that is still recorded aborts, a search that finds anything aborts, and a FROM is passed over, so that a file is taken as the same file without it.", "quantifier": "all sequences of builds or files, all combinations of lost storages, all identifiers, pages and queries", "why_tests_cant": "a test loses one storage after one sequence of builds; that everything comes back is a statement about all sequences and all records, and the ways the other calls go depend on which storages are left", "anchors": ["oca/src/facade/mod.rs: Facade::new", "oca/src/facade/build.rs: Facade::build, validate_ocafile, parse_and_check_base, build_cache, build_meta, build_step, build_models", "oca/src/facade/fetch.rs: get_oca_bundle, get_oca_bundle_steps, get_oca_objects, search_oca_bundle, fetch_all_oca_bundle, fetch_all_capture_base", "oca/src/facade/explore.rs: explore, add_relations"]}
{"id": "C88", "title": "Two repositories that are given the same files are the same", "statement": "Two empty repositories are given the same files in the same order, each process walking its hash maps and hash sets in whatever order it happens to. Then the same becomes of every file: it is stored in both, with the same identifier, the same JSON and the same overlays, or refused by both with the same errors, or both abort. And at the end the two repositories answer the same: the same rows for bundles and capture bases in the same order, the same search rows (perhaps in another order), the same stored bundles, capture bases and overlays, the same operation records, the same names, and for every identifier explore knows the same objects. The conditions are those of C19 on the files that are accepted: no frame with contradictory metadata, no two objects of a bundle with the same identifier. This holds with local references and without.", "quantifier": "all finite sequences of files (with bases and names among them), all hash orders of either process, for every file and every later one", "why_tests_cant": "the order of a hash map is drawn at random for every process; a test sees one draw, and the effect of one order on what a later file finds (its base, its names) only after some history", "anchors": ["oca/src/facade/build.rs: Facade::build_from_ocafile, Facade::validate_ocafile, oca_ast_to_oca_build_with_references", "oca/src/facade/build.rs: Facade::build", "oca/src/repositories/oca_bundle_fts_repo.rs: insert", "oca/src/facade/explore.rs: explore", "semantics/oca-bundle/src/state/oca.rs: generate_bundle"]}
{"id": "C89", "title": "How a JSON document is written does not matter", "statement": "The reader of JSON text accepts exactly the JSON documents of RFC 8259 (nested at most 127 deep, numbers natural numbers of 64 bits) and what it reads is the value written: white space between tokens, and whether and how a character is escaped (by a letter, by \\uXXXX in either case, by a pair of surrogates), make no difference. So a bundle, a capture base or a package that is loaded from a file, or found in the store, is the same however the file was laid out; a text belongs to one value only; and a text that is not a JSON document is refused with an error and never aborts the program.", "quantifier": "every text and every JSON value of any size and every way of writing it, in which numbers are natural numbers (signs, fractions and exponents are outside the claim)", "why_tests_cant": "There are infinitely many texts for one value; a test tries a few layouts and escapes.", "anchors": ["oca/src/facade/bundle.rs: load_oca", "semantics/oca-bundle/src/controller.rs: load_oca", "oca/src/facade/fetch.rs: fetch_all_oca_bundle, fetch_all_capture_base, get_oca_objects, get_oca_bundle"]}
{"id": "C90", "title": "Layers do not disturb each other", "statement": "A bundle is a capture base and overlays, each signed by itself. The capture base (its identifier and its document) depends on nothing but the attributes, their types, the classification and the flags: two builds that agree on these have the same capture base, whatever overlays they have. An overlay - of a kind, and a language, target or frame - depends on nothing but the capture base and what it tells of the attributes: two bundles on one capture base that tell the same in a layer have the same overlay there, with the same identifier, whatever else was said. So adding overlays (at the end of a file, or in a file that starts FROM the bundle, however that was built) leaves the capture base and every other overlay as they are, and an overlay of another layer is in the one bundle exactly when it is in the other. If the capture bases differ, no overlay is shared: each is bound to its own. (For frames: the frame must be described in one way, see C19 and C58.)", "quantifier": "every two builds, every state reached by commands of any number and kind, every list of added overlays, every chain of FROM, every digest function, every iteration order of hash maps", "why_tests_cant": "It relates any two builds that agree in one layer and differ anywhere else; the bundle is produced by iterating over hash maps of attributes that carry all layers together, so a leak from one layer to another may show only for some pair of contents, or some order.", "anchors": ["semantics/oca-bundle/src/state/oca.rs: generate_bundle, generate_overlays, generate_capture_base", "semantics/oca-bundle/src/state/oca/overlay.rs: Overlay::sign", "semantics/oca-bundle/src/build.rs: from_ast, apply_command"]}
{"id": "C91", "title": "The identifier of a bundle is its content", "statement": "Two bundles that tell the same - the same attributes and types, classification, flags, the same facts about each attribute, and the same properties of the model in each language - have the same capture base identifier, the same overlays with the same identifiers (perhaps in another order), the same bundle identifier and the same JSON, however they came about: by other commands, in another order, with mistakes corrected and attributes taken out again, on top of other bundles, with hash maps walked differently. The other way, two built bundles with the same identifier have the same JSON and tell the same (of entry codes and frames, what their JSON shows). The exceptions are explicit: two overlays of one bundle with the same identifier, or two bundles that are a collision of the digest. (Frames must be described in one way, see C19.) The order of a list of entry codes is no part of the content: bundles that differ only in it have the same identifiers and JSON.", "quantifier": "every two states reached by commands of any number and kind, every two files, every iteration order of hash maps, every digest function", "why_tests_cant": "There are infinitely many ways to arrive at the same content; tests compare single builds with a stored identifier.", "anchors": ["semantics/oca-bundle/src/state/oca.rs: generate_bundle, generate_overlays, generate_capture_base, fill_said, serialize_overlays", "semantics/oca-bundle/src/state/oca/overlay.rs: Overlay::sign", "semantics/oca-bundle/src/state/oca/capture_base.rs: sign"]}
