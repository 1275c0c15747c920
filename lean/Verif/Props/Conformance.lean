import Verif.Props.Blake3
import Verif.Model.FileText
import Verif.Model.Fetch
import Verif.Model.Search
import Verif.Model.WholeAst
import Verif.Model.Dag
import Verif.Model.SemValidator
import Verif.Model.Api
import Verif.Props.SearchExample
/-!
# The model against the repository's own tests

Each `example` runs the model on the input of a test of the repository and gets what the test asserts, the identifiers included (`Props/Blake3.lean` has the
code's digest). They are tests of the model, evaluated by the kernel; no property rests on them. The texts are copied from the test files.
-/
namespace OCA
set_option maxRecDepth 100000

/-- the identifiers of some files built one after the other in a facade; `none` for an error -/
def confRuns (f : Facade) : List Str → Option (List (Option Str) × Facade)
  | [] => some ([], f)
  | t :: ts => match f.buildFromText Env.blake Uni.wide Serde.text (fun _ => Order.sorted) SetOrder.kept t with
    | .ok (f, b) => (confRuns f ts).map fun r => (b.said :: r.1, r.2)
    | .err _ => (confRuns f ts).map fun r => (none :: r.1, r.2)
    | .panic => none

/-- the identifiers alone -/
def confSaids (l : List Str) : Option (List (Option Str)) := (confRuns Facade.new l).map (·.1)

/-- the names stored after some builds -/
def confRefs (l : List Str) : Option (List (Str × Str)) := match confRuns Facade.new l with
  | some (_, f) => match (fetchAllRefs f.db : Res Unit _) with
    | .ok m => some m.l
    | _ => none
  | none => none

/-- how many records a search finds after some builds -/
def confFound (l : List Str) (q : Str) : Option Nat := match confRuns Facade.new l with
  | some (_, f) => match (f.search Env.blake Serde.text Fts.plain Rx.plain none q 10 1 : Res Unit _) with
    | .ok r => some r.total
    | _ => none
  | none => none

/-- the text of the bundle a file builds -/
def confJson (s : Str) : Option Str := match buildText Env.blake Uni.wide (fun _ => Order.sorted) s with
  | .ok b => some (b.toJson Env.blake).print
  | _ => none

/-! ## `tests/build_from_ocafile.rs` -/

/-- the file of `build_from_base` (`build_from_ocafile.rs:16-45`) -/
def confBase : Str := c!"\nADD ATTRIBUTE d=Text i = Text passed=Boolean\nADD META en PROPS name = \"Entrance credential\" description = \"Entrance credential\"\nADD CHARACTER_ENCODING ATTRS d=utf-8 i=utf-8 passed=utf-8\nADD CONFORMANCE ATTRS d=M i=M passed=M\nADD LABEL en ATTRS d=\"Schema digest\" i=\"Credential Issuee\" passed=\"Passed\"\nADD INFORMATION en ATTRS d=\"Schema digest\" i=\"Credential Issuee\" passed=\"Enables or disables passing\"\n\nADD ATTR_FRAMING \\\n        id=SNOMEDCT \\\n        label=\"Systematized Nomenclature of Medicine Clinical Terms\" \\\n        location=\"https://bioportal.bioontology.org/ontologies/SNOMEDCT\" \\\n        version=2023AA \\\n    ATTRS \\\n        d = {\n            \"http://purl.bioontology.org/ontology/SNOMEDCT/703503000\": {\n                \"Predicate_id\": \"skos:exactMatch\",\n                \"Framing_justification\": \"semapv:ManualMappingCuration\"\n            },\n            \"http://purl.bioontology.org/ontology/SNOMEDCT/703503001\": {\n                \"Predicate_id\": \"skos:exactMatch\",\n                \"Framing_justification\": \"semapv:ManualMappingCuration\"\n            }\n        }\n        i = {\n            \"http://purl.bioontology.org/ontology/SNOMEDCT/397669002\": {\n                \"Predicate_id\": \"skos:exactMatch\",\n                \"Framing_justification\": \"semapv:ManualMappingCuration\"\n            }\n        }\n"

/-- `build_from_base` (`build_from_ocafile.rs:50-59`): bytes 6 to 22 of the text are the version text; the identifier follows -/
example : (confJson confBase).map (fun t => ((t.drop 6).take 17, (t.drop 30).take 44)) = some (c!"OCAS11JSON0009ac_", c!"ENrE_hCckfWbzflorW6rCZz9wAxcJKSQBMJEVJVAV6rV") := by
  decide +kernel

/-- `build_from_base` (`build_from_ocafile.rs:61-62`): a search for `Ent` finds one record. Here only the line with the name is kept of the file. -/
example : confFound [c!"\nADD ATTRIBUTE d=Text\nADD META en PROPS name = \"Entrance credential\"\n"] c!"Ent" = some 1 := by decide +kernel

/-- the two files of `build_from_other_bundle` (`build_from_ocafile.rs:72-86`) -/
def confOther : List Str := [c!"\nADD ATTRIBUTE d=Text i=Text passed=Boolean\nADD META en PROPS name=\"Entrance credential\" description=\"Entrance credential\"\nADD CHARACTER_ENCODING ATTRS d=utf-8 i=utf-8 passed=utf-8\nADD CONFORMANCE ATTRS d=M i=M passed=M\nADD LABEL en ATTRS d=\"Schema digest\" i=\"Credential Issuee\" passed=\"Passed\"\nADD INFORMATION en ATTRS d=\"Schema digest\" i=\"Credential Issuee\" passed=\"Enables or disables passing\"\n",
  c!"\nFROM EObIQDZX7SGy2oPOZue8qCdLWKSq10pXqMWdrXpBXIDa\nADD ATTRIBUTE x=Text\n"]

/-- `build_from_other_bundle` (`build_from_ocafile.rs:88-91`). The identifier after `FROM` is not that of the first file's bundle: nothing is stored under it. The test passes
because an unknown base is passed over (C41): the result has the one attribute `x`. -/
example : confSaids confOther = some [some c!"EEYimqMic0XCbGovyXRIxmXh0pjkWdxZUGp2TJ5XQHhU", some c!"EA4tLtFQd-xCvDBEEGuod6PkgjMdqORDQgbwdqhX1QLA"] := by decide +kernel

/-- `build_from_other_bundle`, continued: the same identifier without the first file and without the `FROM`. -/
example : confSaids [c!"\nADD ATTRIBUTE x=Text\n"] = some [some c!"EA4tLtFQd-xCvDBEEGuod6PkgjMdqORDQgbwdqhX1QLA"] := by decide +kernel

/-- the four files of `build_with_references` (`build_from_ocafile.rs:102-138`) -/
def confFour : List Str := [c!"\n-- name=first\nADD ATTRIBUTE b=Text\n", c!"\n-- name=second\nADD ATTRIBUTE c=Text\n",
  c!"\nADD ATTRIBUTE A=refs:EI_5ohTYptgOrXldUfZujgd7vcXK9zwa6aNqk4-UDWzq\nADD ATTRIBUTE B=refn:first\nADD ATTRIBUTE C=Array[refn:second]\n",
  c!"\nFROM EKtnSYGee8OwkYKryA_ZEWaYPgJRdncBQrFxaqrFwK1y\nADD ATTRIBUTE x=Text\n"]

/-- `build_with_references`: the identifiers of the third and of the fourth file (`build_from_ocafile.rs:125-142`) -/
example : (confSaids confFour).map (·.drop 2) =
    some [some c!"EA6ptszucE7ehxcGJSDCHN3t-EG34CB1q_y0ZAckgJuD", some c!"EOtPb2eo7mPN2AgQin3jgXSWGzz00CV1TNvD9yN79rjq"] := by decide +kernel

/-- `build_with_references`: two names are stored, and what `second` stands for (`build_from_ocafile.rs:143-149`) -/
example : (confRefs confFour).map (fun l => (l.length, l.lookup c!"second")) = some (2, some c!"EKtnSYGee8OwkYKryA_ZEWaYPgJRdncBQrFxaqrFwK1y") := by decide +kernel

/-- `build_with_link` (`build_from_ocafile.rs:158-179`) -/
example : (confSaids [c!"\n-- name=first\nADD ATTRIBUTE a=Text\n", c!"\n-- name=second\nADD ATTRIBUTE b=Text\nADD LINK refn:first ATTRS b=a\n"]).map (·.drop 1) =
    some [some c!"ENFbq-Nzx23AuPvCRlGT-gMAnMqNnpsGdzfO4oQMhCNn"] := by decide +kernel

/-- `fail_while_building_from_unknown_reference` (`build_from_ocafile.rs:189-203`): the first error is an unknown name -/
example : (match Facade.new.buildFromText Env.blake Uni.wide Serde.text (fun _ => Order.sorted) SetOrder.kept c!"\nADD ATTRIBUTE A=refs:EI_5ohTYptgOrXldUfZujgd7vcXK9zwa6aNqk4-UDWzq\nADD ATTRIBUTE B=refn:second\nADD ATTRIBUTE C=Array[refn:third]\n" with
    | .err (.validation (.unknownRefn n :: _)) => some n
    | _ => none) = some c!"second" := by decide +kernel

/-! ## `oca/src/facade/fetch.rs` -/

/-- the file of `facade_get_ocafile` (`fetch.rs:440-453`) -/
def confFetch : Str := c!"\nADD ATTRIBUTE d=Text i=Text passed=Boolean\nADD META en PROPS description=\"Entrance credential\" name=\"Entrance credential\"\nADD CHARACTER_ENCODING ATTRS d=\"utf-8\" i=\"utf-8\" passed=\"utf-8\"\nADD CONFORMANCE ATTRS d=\"M\" i=\"M\" passed=\"M\"\nADD LABEL en ATTRS d=\"Schema digest\" i=\"Credential Issuee\" passed=\"Passed\"\nADD INFORMATION en ATTRS d=\"Schema digest\" i=\"Credential Issuee\" passed=\"Enables or disables passing\"\nADD FORMAT ATTRS d=\"image/jpeg\"\nADD UNIT ATTRS i=m\nADD ATTRIBUTE list=Array[Text] el=Text\nADD CARDINALITY ATTRS list=\"1-2\"\nADD ENTRY_CODE ATTRS list=\"entry_code_said\" el=[\"o1\", \"o2\", \"o3\"]\nADD ENTRY en ATTRS list=\"refs:ENrf7niTCnz7HD-Ci88rlxHlxkpQ2NIZNNv08fQnXANI\" el={\"o1\": \"o1_label\", \"o2\": \"o2_label\", \"o3\": \"o3_label\"}\n"

/-- a file built, written as a file from the bundle, and built again; with a short digest, the test being about equality only -/
def confAgain : Option (Option Str × Option Str) := match buildText Env.short Uni.wide (fun _ => Order.sorted) confFetch with
  | .ok b => match b.toFile Env.short Order.sorted with
    | .ok t => match buildText Env.short Uni.wide (fun _ => Order.sorted) t with
      | .ok b' => some (b.said, b'.said)
      | _ => none
    | _ => none
  | _ => none

/-- `facade_get_ocafile` (`fetch.rs:454-459`): the file written from the bundle builds the same bundle -/
example : (match confAgain with
    | some (some a, some b) => decide (a = b)
    | _ => false) = true := by decide +kernel

/-! ## `semantics/oca-file` -/

/-- the value of a key in the metadata of a file -/
def confMeta (s k : Str) : Option Str := match parseText Env.blake Uni.wide s with
  | .ok a => a.metaMap.get k
  | _ => none

/-- a file read and written again -/
def confReprint (s : Str) : Option Str := match parseText Env.blake Uni.wide s with
  | .ok a => match (printAst a : Res Unit Str) with
    | .ok t => some t
    | _ => none
  | _ => none

/-- whether a file is read -/
def confReads (s : Str) : Bool := (parseText Env.blake Uni.wide s).isOk

/-- `parse_from_string_valid` (`ocafile/mod.rs:533-578`) -/
example : [c!"version", c!"name"].map (confMeta c!"\n-- version=0.0.1\n-- name=プラスウルトラ\nADD ATTRIBUTE remove=Text\nADD ATTRIBUTE name=Text age=Numeric car=Array[refs:EJeWVGxkqxWrdGi0efOzwg1YQK8FrA-ZmtegiVEtAVcu]\nREMOVE ATTRIBUTE remove\nADD ATTRIBUTE incidentals_spare_parts=Array[Array[refs:EJeWVGxkqxWrdGi0efOzwg1YQK8FrA-ZmtegiVEtAVcu]]\nADD ATTRIBUTE d=Text i=Text passed=Boolean\nADD META en PROPS description=\"Entrance credential\" name=\"Entrance credential\"\nADD CHARACTER_ENCODING ATTRS d=\"utf-8\" i=\"utf-8\" passed=\"utf-8\"\nADD CONFORMANCE ATTRS d=\"M\" i=\"M\" passed=\"M\"\nADD LABEL en ATTRS d=\"Schema digest\" i=\"Credential Issuee\" passed=\"Passed\"\nADD INFORMATION en ATTRS d=\"Name\" i=\"Credential Issuee\" passed=\"Enables or disables passing\"\nADD FORMAT ATTRS d=\"image/jpeg\"\nADD UNIT ATTRS i=m^2 d=°\nADD ATTRIBUTE list=Array[Text] el=Text\nADD CARDINALITY ATTRS list=\"1-2\"\nADD ENTRY_CODE ATTRS list=\"entry_code_said\" el=[\"o1\", \"o2\", \"o3\"]\nADD ENTRY en ATTRS list=\"entry_said\" el={\"o1\": \"o1_label\", \"o2\": \"o2_label\", \"o3\": \"o3_label\"}\nADD FLAGGED_ATTRIBUTES name age\nADD ATTR_FRAMING \\\n        id=SNOMEDCT \\\n        label=\"Systematized Nomenclature of Medicine Clinical Terms\" \\\n        location=\"https://bioportal.bioontology.org/ontologies/SNOMEDCT\" \\\n        version=2023AA \\\n    ATTRS \\\n        name = {\n            \"http://purl.bioontology.org/ontology/SNOMEDCT/703503000\": {\n                \"Predicate_id\": \"skos:exactMatch\",\n                \"Framing_justification\": \"semapv:ManualMappingCuration\"\n            }\n        }\n        age = {\n            \"http://purl.bioontology.org/ontology/SNOMEDCT/397669002\": {\n                \"Predicate_id\": \"skos:exactMatch\",\n                \"Framing_justification\": \"semapv:ManualMappingCuration\"\n            }\n        }\n") =
    [some c!"0.0.1", some c!"プラスウルトラ"] := by decide +kernel

/-- `parse_meta_from_string_valid` (`ocafile/mod.rs:581-592`) -/
example : [c!"version", c!"name"].map (confMeta c!"\n-- version=0.0.1\n-- name=Objekt\nADD attribute name=Text age=Numeric\n") =
    [some c!"0.0.1", some c!"Objekt"] := by decide +kernel

/-- the file of `test_deserialization_ast_to_ocafile` (`ocafile/mod.rs:595-630`) -/
def confEsperanto : Str := c!"ADD ATTRIBUTE name=Text age=Numeric radio=Text list=Text\nADD LABEL eo ATTRS name=\"Nomo\" age=\"aĝo\" radio=\"radio\"\nADD INFORMATION en ATTRS name=\"Object\" age=\"Object\"\nADD CHARACTER_ENCODING ATTRS name=\"utf-8\" age=\"utf-8\"\nADD ENTRY_CODE ATTRS radio=[\"o1\", \"o2\", \"o3\"]\nADD ENTRY eo ATTRS radio={\"o1\": \"etikedo1\", \"o2\": \"etikedo2\", \"o3\": \"etikiedo3\"}\nADD ENTRY pl ATTRS radio={\"o1\": \"etykieta1\", \"o2\": \"etykieta2\", \"o3\": \"etykieta3\"}\nADD CONDITION ATTRS radio=\"${age} > 18\"\nADD ENTRY_CODE ATTRS list={\"g1\": [\"el1\"], \"g2\": [\"el2\", \"el3\"]}\nADD ENTRY pl ATTRS list={\"el1\": \"element1\", \"el2\": \"element2\", \"el3\": \"element3\", \"g1\": \"grupa1\", \"g2\": \"grupa2\"}\nADD LINK refs:EJeWVGxkqxWrdGi0efOzwg1YQK8FrA-ZmtegiVEtAVcu ATTRS name=\"n\"\nADD ATTR_FRAMING \\\n        id=\"SNOMEDCT\" \\\n        label=\"Systematized Nomenclature of Medicine Clinical Terms\" \\\n        location=\"https://bioportal.bioontology.org/ontologies/SNOMEDCT\" \\\n        version=\"2023AA\" \\\n    ATTRS \\\n        name={\n            \"http://purl.bioontology.org/ontology/snomedct/703503000\": {\n                \"predicate_id\": \"skos:exactMatch\",\n                \"framing_justification\": \"semapv:ManualMappingCuration\",\n            },\n            \"http://purl.bioontology.org/ontology/snomedct/703503001\": {\n                \"predicate_id\": \"skos:exactMatch\",\n                \"framing_justification\": \"semapv:ManualMappingCuration\",\n            },\n        }\n        age={\n            \"http://purl.bioontology.org/ontology/snomedct/397669002\": {\n                \"predicate_id\": \"skos:exactMatch\",\n                \"framing_justification\": \"semapv:ManualMappingCuration\",\n            },\n        }\n"

/-- `test_deserialization_ast_to_ocafile` (`ocafile/mod.rs:631-638`) -/
example : confReprint confEsperanto = some confEsperanto := by decide +kernel

/-- `test_attributes_with_special_names` (`ocafile/mod.rs:640-652`) -/
example : confReprint c!"ADD ATTRIBUTE person.name=Text Experiment...Range..original.values.=Array[Text]\n" =
    some c!"ADD ATTRIBUTE person.name=Text Experiment...Range..original.values.=Array[Text]\n" := by decide +kernel

/-- `test_attributes_from_ast_to_ocafile` (`ocafile/mod.rs:654-667`) -/
example : confReprint c!"ADD ATTRIBUTE name=Text age=Numeric\nADD ATTRIBUTE list=Array[Text] el=Text\n" =
    some c!"ADD ATTRIBUTE name=Text age=Numeric\nADD ATTRIBUTE list=Array[Text] el=Text\n" := by decide +kernel

/-- `test_nested_attributes_from_ocafile_to_ast` (`ocafile/mod.rs:669-682`) -/
example : confReprint c!"ADD ATTRIBUTE name=Text age=Numeric car=Array[Array[Text]]\nADD ATTRIBUTE incidentals_spare_parts=Array[refs:EJVVlVSZJqVNnuAMLHLkeSQgwfxYLWTKBELi9e8j1PW0]\n" =
    some c!"ADD ATTRIBUTE name=Text age=Numeric car=Array[Array[Text]]\nADD ATTRIBUTE incidentals_spare_parts=Array[refs:EJVVlVSZJqVNnuAMLHLkeSQgwfxYLWTKBELi9e8j1PW0]\n" := by decide +kernel

/-- `test_wrong_said` (`ocafile/mod.rs:684-695`): an error, not an abort -/
example : (match parseText Env.blake Uni.wide c!"ADD ATTRIBUTE said=refs:digest" with
    | .err _ => true
    | _ => false) = true := by decide +kernel

/-- `test_oca_file_format` (`ocafile/mod.rs:698-718`), the identifier of `example` included -/
example : (match (Pr.attrType (.arr (.arr (.ref (.said (B3.said (B3.utf8 c!"example")))))) : Res Unit Str) with
    | .ok s => some s
    | _ => none) = some c!"Array[Array[refs:EJeWVGxkqxWrdGi0efOzwg1YQK8FrA-ZmtegiVEtAVcu]]" := by
  decide +kernel

/-- `test_add_attribute_instruction` (`instructions/add.rs:178-238`): the lines in the order of the test. The test's list says `false` for the ninth, `ADD ATTRIBUTE name=Text`, but asserts
nothing about a line that is read: it is read. -/
example : [c!"ADD ATTRIBUTE documentNumber = Array[refn:dokument]", c!"ADD ATTRIBUTE documentNumber=Array[Array[Array[refn:dokument]]]", c!"ADD ATTRIBUTE documentNumber=Array[ refs:ENyO7FUBx7oILUYt8FwmLaDVmvOZGETXWHICultMSEpW ]", c!"ADD ATTRIBUTE documentNumber=Array[refn:klient, refs:ENyO7FUBx7oILUYt8FwmLaDVmvOZGETXWHICultMSEpW]", c!"ADD ATTRIBUTE documentNumber=snieg documentType=refs:ENyO7FUBx7oILUYt8FwmLaDVmvOZGETXWHICultMSEpW", c!"ADD ATTRIBUTE documentNumber=refn:snieg documentType=refs:ENyO7FUBx7oILUYt8FwmLaDVmvOZGETXWHICultMSEpW", c!"ADD ATTRIBUTE documentNumber=Text documentType=Numeric", c!"ADD ATTRIBUTE documentNumber=Text documentType=Numeric name=Text list=Array[Numeric]", c!"ADD ATTRIBUTE name=Text", c!"ADD ATTR name=Text", c!"ADD attribute name=Text", c!"add attribute name=Text", c!"add attribute name=Random", c!"add flagged_attributes name documentType"].map confReads =
    [true, true, true, false, false, true, true, true, true, false, true, true, false, true] := by decide +kernel

/-- what the first command of a file says about an attribute -/
def confValue (s n : Str) : Option NVal := match parseText Env.blake Uni.wide s with
  | .ok a => match a.commands with
    | ⟨.add, .overlay _ c⟩ :: _ => (c.attributes.getD []).lookup n
    | _ => none
  | _ => none

/-- a text value, or the texts of a list -/
def confTexts : Option NVal → Option (List Str)
  | some (.val s) => some [s]
  | some (.arr l) => some (l.filterMap fun | .val s => some s | _ => none)
  | _ => none

/-- `test_add_overlay_instructions` (`instructions/add.rs:244-310`) -/
example : confTexts (confValue c!"ADD ENTRY_CODE ATTRS radio=[\"o1\",\"o2\", \"o3\"]" c!"radio") = some [c!"o1", c!"o2", c!"o3"] ∧
    confTexts (confValue c!"ADD FORMAT ATTRS name = \"^\\d+$\"" c!"name") = some [c!"^\\d+$"] ∧
    confTexts (confValue c!"ADD CHARACTER_ENCODING ATTRS name=\"utf-16le\"" c!"name") = some [c!"utf-16le"] := by decide +kernel

/-- `test_from_instruction` (`instructions/from.rs:64-104`) -/
example : [c!"FROM ENmwqnqVxonf_bNZ0hMipOJJY25dxlC8eSY5BbyMCfLJ", c!"from ENmwqnqVxonf_bNZ0hMipOJJY25dxlC8eSY5BbyMCfLJ", c!"from error",
    c!"from https://humancolossus.org/ENmwqnqVxonf_bNZ0hMipOJJY25dxlC8eSY5BbyMCfLJ"].map confReads = [true, true, false, false] := by decide +kernel

/-! ## `oca-file` and `transformation` -/

/-- which of the two kinds a file is -/
def confKind (s : Str) : Option Bool := match parseFile Env.blake Uni.wide s with
  | .ok (.semantics _) => some true
  | .ok (.transformation _) => some false
  | _ => none

/-- `parse_transformation_from_string_valid`, `parse_semantics_from_string_valid`, `parse_semantics_from_string_by_default` (`oca-file/src/ocafile/mod.rs:110-147`) -/
example : [c!"\n-- precompiler=transformation\n-- version=0.0.1\n-- name=Objekt\nRENAME ATTRIBUTE surname=last_name\n", c!"\n-- precompiler=semantics\n-- version=0.0.1\n-- name=Objekt\nADD ATTRIBUTE surname=Text\n", c!"\n-- version=0.0.1\n-- name=Objekt\nADD ATTRIBUTE surname=Text\n"].map confKind =
    [some false, some true, some true] := by decide +kernel

/-- the pairs of the first command of a transformation file -/
def confPairs (s : Str) : Option (List (Str × Str)) := match parseTransformation Uni.wide s with
  | .ok a => match a.commands with
    | ⟨.rename, .rename l⟩ :: _ => l
    | ⟨.link, .link l⟩ :: _ => l
    | _ => none
  | _ => none

/-- `test_link_attribute_instruction` (`instructions/link.rs:73-117`) and `test_rename_attribute_instruction` (`instructions/rename.rs:73-118`) -/
example : [c!"LINK ATTRIBUTE documentNumber -> document_number", c!"LINK ATTRIBUTE name", c!"RENAME ATTRIBUTE documentNumber=document_number", c!"RENAME ATTRIBUTE name"].map
    confPairs = [some [(c!"documentNumber", c!"document_number")], none, some [(c!"documentNumber", c!"document_number")], none] := by decide +kernel

/-- `parse_from_string_valid` (`transformation/oca-file/src/ocafile/mod.rs:145-156`) -/
example : (match parseTransformation Uni.wide c!"\n-- version=0.0.1\nLINK ATTRIBUTE surname -> last_name\n" with
    | .ok a => a.metaMap.get c!"version"
    | _ => none) = some c!"0.0.1" := by decide +kernel

/-- the tree of `test_ast_serialize` (`transformation/ast/src/ast/mod.rs:350-361`) -/
def confTree : TAst := { TAst.new with commands := [⟨.rename, .rename (some [(c!"digest", c!"d")])⟩] }

/-- `test_ast_serialize` (`transformation/ast/src/ast/mod.rs:363-371`), both ways -/
example : (confTree.toJson Order.sorted).print = c!"{\"version\":\"1.0.0\",\"commands\":[{\"type\":\"Rename\",\"object_kind\":\"Rename\",\"content\":{\"attributes\":{\"digest\":\"d\"}}}],\"commands_meta\":{},\"meta\":{}}" ∧
    (match Json.read c!"{\"version\":\"1.0.0\",\"commands\":[{\"type\":\"Rename\",\"object_kind\":\"Rename\",\"content\":{\"attributes\":{\"digest\":\"d\"}}}],\"commands_meta\":{},\"meta\":{}}" with
    | some j => match TAst.ofJson j with
      | .ok a => some (a.toJson Order.sorted).print
      | _ => none
    | none => none) = some (confTree.toJson Order.sorted).print := by decide +kernel

/-! ## `semantics/oca-ast` -/

/-- an attribute type read from a text -/
def confType (s : Str) : Option NAttr := match Json.read s with
  | some j => match NAttr.ofJson Env.blake j with
    | .ok t => some t
    | _ => none
  | none => none

/-- `test_nested_array_attribute_type_serialization` (`ast/attributes.rs:116-138`), the identifier of `fff` included -/
example : (NAttr.toJson (.arr (.arr (.val .boolean)))).print = c!"[[\"Boolean\"]]" ∧ confType c!"[[\"Boolean\"]]" = some (.arr (.arr (.val .boolean))) ∧
    (NAttr.toJson (.arr (.ref (.said (B3.said (B3.utf8 c!"fff")))))).print = c!"[\"refs:EEokfxxqwAM08iku7VHMaVFBaEGYVi2W-ctBKaTW6QdJ\"]" ∧
    confType c!"[\"refs:EEokfxxqwAM08iku7VHMaVFBaEGYVi2W-ctBKaTW6QdJ\"]" = some (.arr (.ref (.said (B3.said (B3.utf8 c!"fff"))))) := by decide +kernel

/-- `test_nested_attribute_deserialize` and `test_reference_attribute_deserialize` (`ast/attributes.rs:141-188`) -/
example : confType c!"[\"Numeric\"]" = some (.arr (.val .numeric)) ∧ confType c!"[\"Wrong\"]" = none ∧ confType c!"[\"refn:bob\"]" = some (.arr (.ref (.name c!"bob"))) ∧
    confType c!"[\"refs:wrong_said\"]" = none ∧ confType c!"[\"EEokfxxqwAM08iku7VHMaVFBaEGYVi2W-ctBKaTW6QdJ\"]" = none := by decide +kernel

/-- the tree of `test_ocaast_serialize` (`ast/mod.rs:1051-1090`) -/
def confAst : OCAAst := { OCAAst.new with commands := [
  ⟨.add, .captureBase ⟨some [(c!"allowed", .arr (.val .boolean)), (c!"test", .val .text)], some [(c!"test", .val c!"test")], some [c!"test"]⟩⟩,
  ⟨.add, .overlay ⟨.label, c!"1.1"⟩ ⟨none, none⟩⟩] }

/-- `test_ocaast_serialize` (`ast/mod.rs:1092-1100`), both ways -/
example : (confAst.toJson Order.sorted).print = c!"{\"version\":\"1.0.0\",\"commands\":[{\"type\":\"Add\",\"object_kind\":\"CaptureBase\",\"content\":{\"attributes\":{\"allowed\":[\"Boolean\"],\"test\":\"Text\"},\"properties\":{\"test\":\"test\"},\"flagged_attributes\":[\"test\"]}},{\"type\":\"Add\",\"object_kind\":\"Label\",\"content\":{}}],\"commands_meta\":{},\"meta\":{}}" ∧
    (match Json.read c!"{\"version\":\"1.0.0\",\"commands\":[{\"type\":\"Add\",\"object_kind\":\"CaptureBase\",\"content\":{\"attributes\":{\"allowed\":[\"Boolean\"],\"test\":\"Text\"},\"properties\":{\"test\":\"test\"},\"flagged_attributes\":[\"test\"]}},{\"type\":\"Add\",\"object_kind\":\"Label\",\"content\":{}}],\"commands_meta\":{},\"meta\":{}}" with
    | some j => match OCAAst.ofJson Env.blake j with
      | .ok a => some (a.toJson Order.sorted).print
      | _ => none
    | none => none) = some (confAst.toJson Order.sorted).print := by decide +kernel

/-- the commands of `test_rule_remove_if_exist` (`validator.rs:288-338`) -/
def confCommands : List Command :=
  [⟨.add, .captureBase ⟨some [(c!"name", .val .text), (c!"documentType", .val .text), (c!"photo", .val .binary)], some [(c!"classification", .val c!"GICS:1234")], none⟩⟩,
   ⟨.add, .captureBase ⟨some [(c!"issuer", .val .text), (c!"last_name", .val .binary)], some [(c!"classification", .val c!"GICS:1234")], none⟩⟩,
   ⟨.remove, .captureBase ⟨some [(c!"name", .null), (c!"documentType", .null)], some [], none⟩⟩,
   ⟨.add, .captureBase ⟨some [(c!"name", .val .text)], some [], none⟩⟩]

/-- `test_rule_remove_if_exist` (`validator.rs:363-373`) -/
example : (ruleRemove confCommands ⟨some [(c!"name", .null), (c!"issuer", .null)], some [], none⟩).isOk = true ∧
    (ruleRemove (confCommands ++ [⟨.remove, .captureBase ⟨some [(c!"documentType", .null)], some [], none⟩⟩]) ⟨some [(c!"documentType", .null)], some [], none⟩).isOk = false := by
  decide +kernel

/-- `test_rule_add_if_not_exist` (`validator.rs:376-440`) -/
example : (ruleAdd (confCommands.take 2) ⟨some [(c!"first_name", .val .text), (c!"address", .val .text)], some [], none⟩).isOk = true ∧
    (ruleAdd (confCommands.take 2 ++ [⟨.add, .captureBase ⟨some [(c!"name", .val .text), (c!"phone", .val .text)], some [], none⟩⟩])
      ⟨some [(c!"name", .val .text), (c!"phone", .val .text)], some [], none⟩).isOk = false := by
  decide +kernel

/-! ## `semantics/oca-dag` -/

/-- the commands of `test_build_core_db_model` (`oca-dag/src/lib.rs:182-236`) -/
def confDag : List Command :=
  [addAttrs [(c!"abc", .val .text)], addOv .label [(c!"lang", .val c!"en")] [(c!"abc", .val c!"ble")], addAttrs [(c!"def", .val .text)],
   addOv .label [(c!"lang", .val c!"fr")] [(c!"abc", .val c!"ble")]]

/-- the models recorded: the digest of the command, and whether there is a capture base and an overlay -/
def confModels : Option (List (Str × Bool × Bool)) := match fromAst Env.blake (fun _ => Order.sorted) none ⟨c!"0.1.0", confDag, [], FMap.empty⟩ with
  | .ok b => match (buildCoreModel Env.blake b.steps : Res Unit _) with
    | .ok l => some (l.map fun r => (r.command.digest, r.captureBase.isSome, r.overlay.isSome))
    | _ => none
  | _ => none

/-- `test_build_core_db_model` (`oca-dag/src/lib.rs:264-276`) -/
example : confModels.map (·.length) = some 4 ∧ confModels.bind (·.head?) = some (c!"EJnPP-iVzRutbWJF4tt3pX_89NB77854DMyYdl_aVaWH", true, false) ∧
    (confModels.bind (·.getLast?)).map (·.2) = some (false, true) := by decide +kernel

/-! ## `semantics/oca-bundle` -/

/-- the first attribute of `create_oca` (`tests/create_oca_test.rs:34-55`) -/
def confName : Attribute :=
  ((((((((((({} : Attribute).setTy (.val .text)).setFlagged.setEncoding .utf8).setCardinality c!"1").setConformance c!"O").setLabel c!"eng" c!"Name").setInformation c!"eng"
    c!"name information").setEntryCodes (.array [c!"a", c!"b"])).setEntry c!"pol" (.object (FMap.ofList [(c!"a", c!"Opcja A"), (c!"b", c!"Opcja B")]))).setEntry c!"eng"
    (.object (FMap.ofList [(c!"a", c!"Option A"), (c!"b", c!"Option B")]))).setUnit c!"kg").setFormat c!"^[a-zA-Z]*$"

/-- the second attribute of `create_oca` (`tests/create_oca_test.rs:59-77`) -/
def confAge : Attribute :=
  ((((((((((({} : Attribute).setTy (.val .numeric)).setFlagged.setEncoding .utf8).setCardinality c!"2").setConformance c!"M").setCond
    c!"${name} ~= nil and ${name} ~= ''").setLabel c!"eng" c!"Age").setInformation c!"eng" c!"age information").setEntryCodes (.array [c!"a", c!"b"])).setEntry c!"eng"
    (.object (FMap.ofList [(c!"a", c!"Option A"), (c!"b", c!"Option B")]))).setUnit c!"kg").setFormat c!"^[a-zA-Z]*$"

/-- the state of `create_oca` (`tests/create_oca_test.rs:28-79`) -/
def confBox : OCABox := (((OCABox.new.addMeta c!"eng" c!"name" c!"Test").addMeta c!"eng" c!"description" c!"Test case OCA").addAttribute c!"name" confName).addAttribute
  c!"age" confAge

/-- the bundle of a state -/
def confGen (b : OCABox) : Option Bundle := match (generateBundle Env.blake Order.sorted b : Res Unit Bundle) with
  | .ok b => some b
  | _ => none

/-- the text `create_oca` expects (`tests/create_oca_test.rs:98-245`), with all its identifiers -/
def confExpected : Str := c!"{\n  \"d\": \"EKt3_1YAWFo2tf2khPqtV6gaI9tvCo8jgdh1uMGQSnB9\",\n  \"capture_base\": {\n    \"d\": \"EGbBiC4HEJnZhafuhu4wf_lS7zwCg1l1ZIrGoe8JbB4s\",\n    \"type\": \"spec/capture_base/1.1\",\n    \"attributes\": {\n      \"age\": \"Numeric\",\n      \"name\": \"Text\"\n    },\n    \"classification\": \"\",\n    \"flagged_attributes\": [\n      \"age\",\n      \"name\"\n    ]\n  },\n  \"overlays\": {\n    \"cardinality\": {\n      \"d\": \"EJ7yumk8wtXkMZMDqCHKZVcEJ8ymjSlEYzCUj7NLUmwU\",\n      \"capture_base\": \"EGbBiC4HEJnZhafuhu4wf_lS7zwCg1l1ZIrGoe8JbB4s\",\n      \"type\": \"spec/overlays/cardinality/1.1\",\n      \"attribute_cardinality\": {\n        \"age\": \"2\",\n        \"name\": \"1\"\n      }\n    },\n    \"character_encoding\": {\n      \"d\": \"EIjeafGrlGLqhVbX-YDh7H6XSV3C7g5qAJotjAo5OCNi\",\n      \"capture_base\": \"EGbBiC4HEJnZhafuhu4wf_lS7zwCg1l1ZIrGoe8JbB4s\",\n      \"type\": \"spec/overlays/character_encoding/1.1\",\n      \"attribute_character_encoding\": {\n        \"age\": \"utf-8\",\n        \"name\": \"utf-8\"\n      }\n    },\n    \"conditional\": {\n      \"d\": \"EP8mHNqOLSfuKpTkzfLI4Oc3JoXVgI9XA3HnAG-_E6e2\",\n      \"capture_base\": \"EGbBiC4HEJnZhafuhu4wf_lS7zwCg1l1ZIrGoe8JbB4s\",\n      \"type\": \"spec/overlays/conditional/1.1\",\n      \"attribute_conditions\": {\n        \"age\": \"${0} ~= nil and ${0} ~= ''\"\n      },\n      \"attribute_dependencies\": {\n        \"age\": [\n          \"name\"\n        ]\n      }\n    },\n    \"conformance\": {\n      \"d\": \"EOWj3aeNmzg4XIoAcKdUMnlTui5vZgOKK5jIwNGWaWXz\",\n      \"capture_base\": \"EGbBiC4HEJnZhafuhu4wf_lS7zwCg1l1ZIrGoe8JbB4s\",\n      \"type\": \"spec/overlays/conformance/1.1\",\n      \"attribute_conformance\": {\n        \"age\": \"M\",\n        \"name\": \"O\"\n      }\n    },\n    \"entry\": [\n      {\n        \"d\": \"EBgZ2JsfGabAVKIZ0Xfal6sLNp84rysKKnAJB9C0Fan5\",\n        \"capture_base\": \"EGbBiC4HEJnZhafuhu4wf_lS7zwCg1l1ZIrGoe8JbB4s\",\n        \"type\": \"spec/overlays/entry/1.1\",\n        \"language\": \"eng\",\n        \"attribute_entries\": {\n          \"age\": {\n            \"a\": \"Option A\",\n            \"b\": \"Option B\"\n          },\n          \"name\": {\n            \"a\": \"Option A\",\n            \"b\": \"Option B\"\n          }\n        }\n      },\n      {\n        \"d\": \"ELRBbVw3Awq0UL-RBGWvpHh5bD8B0O7rDj8sV3ujy2dv\",\n        \"capture_base\": \"EGbBiC4HEJnZhafuhu4wf_lS7zwCg1l1ZIrGoe8JbB4s\",\n        \"type\": \"spec/overlays/entry/1.1\",\n        \"language\": \"pol\",\n        \"attribute_entries\": {\n          \"name\": {\n            \"a\": \"Opcja A\",\n            \"b\": \"Opcja B\"\n          }\n        }\n      }\n    ],\n    \"entry_code\": {\n      \"d\": \"EJ2w0sektxjHzhaXpIk0i9Pbhang9stT_AbXdOSmHrlD\",\n      \"capture_base\": \"EGbBiC4HEJnZhafuhu4wf_lS7zwCg1l1ZIrGoe8JbB4s\",\n      \"type\": \"spec/overlays/entry_code/1.1\",\n      \"attribute_entry_codes\": {\n        \"age\": [\n          \"a\",\n          \"b\"\n        ],\n        \"name\": [\n          \"a\",\n          \"b\"\n        ]\n      }\n    },\n    \"format\": {\n      \"d\": \"EDuiqqJ_zdVLcAbb3MThjgYIQ0xxPun9Vm3-kRVM7Mc8\",\n      \"capture_base\": \"EGbBiC4HEJnZhafuhu4wf_lS7zwCg1l1ZIrGoe8JbB4s\",\n      \"type\": \"spec/overlays/format/1.1\",\n      \"attribute_formats\": {\n        \"age\": \"^[a-zA-Z]*$\",\n        \"name\": \"^[a-zA-Z]*$\"\n      }\n    },\n    \"information\": [\n      {\n        \"d\": \"EJFEliHs1yi_hcpgwwpHRizYfL8ESsPfLBRcnl2WKDbl\",\n        \"capture_base\": \"EGbBiC4HEJnZhafuhu4wf_lS7zwCg1l1ZIrGoe8JbB4s\",\n        \"type\": \"spec/overlays/information/1.1\",\n        \"language\": \"eng\",\n        \"attribute_information\": {\n          \"age\": \"age information\",\n          \"name\": \"name information\"\n        }\n      }\n    ],\n    \"label\": [\n      {\n        \"d\": \"EIbDK-C9BN5SDCuqJ23fEsAFFoPABgtxVUp6TiNgrk6o\",\n        \"capture_base\": \"EGbBiC4HEJnZhafuhu4wf_lS7zwCg1l1ZIrGoe8JbB4s\",\n        \"type\": \"spec/overlays/label/1.1\",\n        \"language\": \"eng\",\n        \"attribute_categories\": [],\n        \"attribute_labels\": {\n          \"age\": \"Age\",\n          \"name\": \"Name\"\n        },\n        \"category_labels\": {}\n      }\n    ],\n    \"meta\": [\n      {\n        \"d\": \"ECXWiZUmx8s8OsgfGI6dpMD4RnjPCuk-JVkwuK2aFAVl\",\n        \"capture_base\": \"EGbBiC4HEJnZhafuhu4wf_lS7zwCg1l1ZIrGoe8JbB4s\",\n        \"type\": \"spec/overlays/meta/1.1\",\n        \"language\": \"eng\",\n        \"description\": \"Test case OCA\",\n        \"name\": \"Test\"\n      }\n    ],\n    \"unit\": {\n      \"d\": \"EErcFaMa5fJ3YjtnG6VWSIUtRVyHAWCHSZfwtjz0sO2M\",\n      \"capture_base\": \"EGbBiC4HEJnZhafuhu4wf_lS7zwCg1l1ZIrGoe8JbB4s\",\n      \"type\": \"spec/overlays/unit/1.1\",\n      \"attribute_unit\": {\n        \"age\": \"kg\",\n        \"name\": \"kg\"\n      }\n    }\n  }\n}"

/-- the members of an object without the version text, which `encode` adds and plain serialisation does not -/
def confNoVersion : Json → Json
  | .obj l => .obj (l.filter fun p => p.1 ≠ c!"v")
  | j => j

/-- `create_oca` (`tests/create_oca_test.rs:81-97` and `416`): the counts, and the whole text up to layout -/
example : (confGen confBox).map (fun b => (b.captureBase.attributes.l.length, b.captureBase.flagged.length, b.overlays.length)) = some (2, 2, 12) ∧
    ((confGen confBox).map fun b => (confNoVersion (b.toJson Env.blake)).print) = (Json.read confExpected).map Json.print := by decide +kernel

/-- the state of `load_oca_box_from_oca_bundle` (`oca.rs:1377-1410`); the identifier there is a default one -/
def confLoad : OCABox :=
  ((((OCABox.new.addMeta c!"eng" c!"name" c!"test name").addMeta c!"eng" c!"description" c!"test desc").addAttribute c!"first_name" (({} : Attribute).setTy (.val .text))).addAttribute
    c!"last_name" ((({} : Attribute).setTy (.val .text)).setCond c!"string.len(${first_name}) > 0")).addAttribute c!"ref"
    (((({} : Attribute).setTy (.ref (.said c!"EEokfxxqwAM08iku7VHMaVFBaEGYVi2W-ctBKaTW6QdJ"))).setLink c!"target_bundle" c!"linked_attr").setFraming c!"frame_id"
      (FMap.ofList [(c!"url", ⟨c!"skos:exactMatch", c!"semapv:ManualMappingCuration", FMap.empty⟩)]))

/-- `load_oca_box_from_oca_bundle` (`oca.rs:1412-1419`) -/
example : (match confGen confLoad with
    | some b => match (OCABox.ofBundle Env.blake b : Res Unit OCABox) with
      | .ok box => decide ((confGen box).bind (·.said) = b.said ∧ b.said.isSome = true)
      | _ => false
    | none => false) = true := by decide +kernel

/-- what validation says about a state -/
def confErrors (langs : List Lang) (b : OCABox) : Option Nat := match confGen b with
  | some b => match validateBundle Env.blake langs b with
    | .ok _ => some 0
    | .err es => some es.length
    | .panic => none
  | none => none

/-- `validate_valid_oca`, `validate_oca_with_missing_name_translation` and `validate_oca_with_conditional` (`state/validator.rs:415-473, 541-571`) -/
example : confErrors [c!"eng", c!"pol"] ((((((OCABox.new.addMeta c!"eng" c!"name" c!"Driving Licence").addMeta c!"eng" c!"description" c!"DL").addMeta c!"pol" c!"name"
      c!"Prawo Jazdy").addMeta c!"pol" c!"description" c!"PJ").addAttribute c!"name"
      ((((({} : Attribute).setTy (.val .text)).setEncoding .utf8).setLabel c!"eng" c!"Name: ").setLabel c!"pol" c!"Imię: ")).addAttribute c!"age"
      (((({} : Attribute).setTy (.val .numeric)).setLabel c!"eng" c!"Age: ").setLabel c!"pol" c!"Wiek: ")) = some 0 ∧
    confErrors [c!"eng", c!"pol"] (OCABox.new.addMeta c!"eng" c!"name" c!"Driving Licence") = some 1 ∧
    confErrors [] ((OCABox.new.addAttribute c!"age" ((({} : Attribute).setTy (.val .numeric)).setEncoding .utf8)).addAttribute c!"name"
      ((({} : Attribute).setTy (.val .text)).setCond c!"${age} > 18 and ${age} < 30")) = some 0 := by decide +kernel

/-- `validate_oca_with_invalid_saids` (`state/validator.rs:495-538`): four errors -/
example : (match Json.read c!"\n{\n    \"version\": \"OCAB10000023_\",\n    \"said\": \"EBQMQm_tXSC8tnNICl7paGUeGg0SyF1tceHhTUutn1PN\",\n    \"capture_base\": {\n        \"type\": \"spec/capture_base/1.0\",\n        \"said\": \"EBQMQm_tXSC8tnNICl7paGUeGg0SyF1tceHhTUutn1PN\",\n        \"classification\": \"\",\n        \"attributes\": {\n            \"n1\": \"Text\",\n            \"n2\": \"DateTime\",\n            \"n3\": \"refs:EBQMQm_tXSC8tnNICl7paGUeGg0SyF1tceHhTUutn1aP\"\n        },\n        \"flagged_attributes\": [\"n1\"]\n    },\n    \"overlays\": {\n        \"character_encoding\": {\n            \"capture_base\": \"EDRt2wL8yVWVSJdF8aMFtU9VQ6aWzXZTgWj3WqsIKLqm\",\n            \"said\": \"EBQMQm_tXSC8tnNICl7paGUeGg0SyF1tceHhTUutn1PN\",\n            \"type\": \"spec/overlays/character_encoding/1.0\",\n            \"default_character_encoding\": \"utf-8\",\n            \"attribute_character_encoding\": {}\n        }\n    }\n}\n        " with
    | some j => match Bundle.ofJson Env.blake j with
      | .ok b => match validateBundle Env.blake [] b with
        | .err es => some es.length
        | _ => none
      | _ => none
    | none => none) = some 4 := by decide +kernel

end OCA
