import Verif.Model.Api
/-!
# The calls of the library that no command and no loading makes
(`semantics/oca-bundle/src/state/oca.rs:95-100`, `state/oca/overlay/label.rs:28-39`). `add_standard` (`overlay/standard.rs:11-25`) is private to the crate and not used.
-/
namespace OCA

/-- `add_category_label` (`overlay/label.rs:28-39`) -/
def Attribute.addCategoryLabel (a : Attribute) (l : Lang) (s : Str) : Attribute :=
  { a with categoryLabels := putIn a.categoryLabels l s }

/-- `add_attribute_mapping` (`oca.rs:95-100`) -/
def OCABox.addAttributeMapping (b : OCABox) (m : FMap Str) : OCABox :=
  { b with mappings := match b.mappings with
    | some l => some (l ++ [m])
    | none => some [m] }

end OCA
