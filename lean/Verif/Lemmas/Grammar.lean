import Verif.Lemmas.Peg
import Verif.Model.Grammar
/-!
# The rules of the grammar: what they consume, recursion
-/
namespace OCA
open Peg

namespace Peg
/-- `Good`, found by instance search -/
class IsGood {R : Type} (p : Peg R) : Prop where
  good : Good p

section
variable {R : Type} {p q : Peg R}
theorem good (p : Peg R) [h : IsGood p] : Good p := h.good
instance (s : Str) : IsGood (lit s : Peg R) := ⟨.lit s⟩
instance (s : Str) : IsGood (ilit s : Peg R) := ⟨.ilit s⟩
instance (f : Char → Bool) : IsGood (cls f : Peg R) := ⟨.cls f⟩
instance : IsGood (any : Peg R) := ⟨.cls _⟩
instance : IsGood (eoi : Peg R) := ⟨.eoi⟩
instance [hp : IsGood p] [hq : IsGood q] : IsGood (seq p q) := ⟨hp.good.seq hq.good⟩
instance [hp : IsGood p] [hq : IsGood q] : IsGood (alt p q) := ⟨hp.good.alt hq.good⟩
instance [hp : IsGood p] : IsGood (opt p) := ⟨hp.good.opt⟩
instance : IsGood (neg p) := ⟨.neg p⟩
instance [hp : IsGood p] : IsGood (star p) := ⟨hp.good.star⟩
instance [hp : IsGood p] : IsGood (plus p) := ⟨hp.good.plus⟩
instance (k : R) [hp : IsGood p] : IsGood (normal k p) := ⟨hp.good.normal k⟩
instance (k : R) [hp : IsGood p] : IsGood (atomic k p) := ⟨hp.good.atomic k⟩
instance (k : R) [hp : IsGood p] : IsGood (compound k p) := ⟨hp.good.compound k⟩
end
end Peg

namespace Gr
variable (U : Uni)

instance : IsGood newline := by unfold newline; infer_instance
instance : IsGood alpha := by unfold alpha; infer_instance
instance : IsGood hexDigit := by unfold hexDigit; infer_instance
instance : IsGood ws := by unfold ws; infer_instance
instance : IsGood comment := by unfold comment; infer_instance
instance : IsGood commentLine := by unfold commentLine; infer_instance
instance : IsGood emptyLine := by unfold emptyLine; infer_instance
instance : IsGood unicode := by unfold unicode; infer_instance
instance : IsGood escape := by unfold escape; infer_instance
instance (q : Char) : IsGood (plainChar q) := by unfold plainChar; infer_instance
instance (k : Rule) (q : Char) (p : P) [IsGood p] : IsGood (innerBody k q p) := by unfold innerBody; infer_instance
instance : IsGood inner := ⟨.fix fun p hp => have : IsGood p := ⟨hp⟩; good _⟩
instance : IsGood singleQuotedInner := ⟨.fix fun p hp => have : IsGood p := ⟨hp⟩; good _⟩
instance : IsGood doubleQuotedString := by unfold doubleQuotedString; infer_instance
instance : IsGood singleQuotedString := by unfold singleQuotedString; infer_instance
instance : IsGood string := by unfold string; infer_instance
instance : IsGood lineContinuation := by unfold lineContinuation; infer_instance
instance : IsGood argWs := by unfold argWs; infer_instance
instance : IsGood (scripts U) := by unfold scripts; infer_instance
instance : IsGood (char U) := by unfold char; infer_instance
instance : IsGood (value U) := by unfold value; infer_instance
instance : IsGood (metaAttrValue U) := by unfold metaAttrValue; infer_instance
instance (p : P) [IsGood p] : IsGood (metaKeyPair U p) := by unfold metaKeyPair; infer_instance
instance (p : P) [IsGood p] : IsGood (metaComment U p) := by unfold metaComment; infer_instance
instance (p : P) [IsGood p] : IsGood (metaCommentLine U p) := by unfold metaCommentLine; infer_instance
instance : IsGood semMetaKey := by unfold semMetaKey; infer_instance
instance : IsGood topMetaKey := by unfold topMetaKey; infer_instance
instance : IsGood (fromSaid U) := by unfold fromSaid; infer_instance
instance : IsGood (from_ U) := by unfold from_; infer_instance
instance : IsGood (modify U) := by unfold modify; infer_instance
instance : IsGood attrsKey := by unfold attrsKey; infer_instance
instance : IsGood propsKey := by unfold propsKey; infer_instance
instance : IsGood lang := by unfold lang; infer_instance
instance : IsGood attrKey := by unfold attrKey; infer_instance
instance : IsGood propKey := by unfold propKey; infer_instance
instance : IsGood (keyValue U) := by unfold keyValue; infer_instance
instance : IsGood (keyPair U) := by unfold keyPair; infer_instance
instance : IsGood (attrKeyPairs U) := by unfold attrKeyPairs; infer_instance
instance : IsGood (propKeyPairs U) := by unfold propKeyPairs; infer_instance
instance : IsGood unitChar := by unfold unitChar; infer_instance
instance : IsGood unitValue := by unfold unitValue; infer_instance
instance : IsGood unitKeyPair := by unfold unitKeyPair; infer_instance
instance : IsGood unitAttrKeyPairs := by unfold unitAttrKeyPairs; infer_instance
instance : IsGood spaces := by unfold spaces; infer_instance
instance : IsGood entryCodeList := by unfold entryCodeList; infer_instance
instance : IsGood entryCodeGroupKey := by unfold entryCodeGroupKey; infer_instance
instance : IsGood entryCodeKeyValuePair := by unfold entryCodeKeyValuePair; infer_instance
instance : IsGood entryCodeObject := by unfold entryCodeObject; infer_instance
instance : IsGood (entryCodeKeyValue U) := by unfold entryCodeKeyValue; infer_instance
instance : IsGood (entryCodeKeyPair U) := by unfold entryCodeKeyPair; infer_instance
instance : IsGood (attrEntryCodeKeyPairs U) := by unfold attrEntryCodeKeyPairs; infer_instance
instance : IsGood entryValue := by unfold entryValue; infer_instance
instance : IsGood entryKey := by unfold entryKey; infer_instance
instance : IsGood entryKeyValuePair := by unfold entryKeyValuePair; infer_instance
instance : IsGood entryObject := by unfold entryObject; infer_instance
instance : IsGood (entryKeyValue U) := by unfold entryKeyValue; infer_instance
instance : IsGood (entryKeyPair U) := by unfold entryKeyPair; infer_instance
instance : IsGood (attrEntryKeyPairs U) := by unfold attrEntryKeyPairs; infer_instance
instance : IsGood (listValue U) := by unfold listValue; infer_instance
instance : IsGood baseAttrType := by unfold baseAttrType; infer_instance
instance : IsGood (said U) := by unfold said; infer_instance
instance : IsGood (alias U) := by unfold alias; infer_instance
instance : IsGood (refSaid U) := by unfold refSaid; infer_instance
instance : IsGood (refAlias U) := by unfold refAlias; infer_instance
instance : IsGood (referenceType U) := by unfold referenceType; infer_instance
instance (p : P) [IsGood p] : IsGood (arrayBody U p) := by unfold arrayBody; infer_instance
instance : IsGood (arrayAttrType U) := ⟨.fix fun p hp => have : IsGood p := ⟨hp⟩; good _⟩
instance : IsGood (attrType U) := by unfold attrType; infer_instance
instance : IsGood (attrPair U) := by unfold attrPair; infer_instance
instance : IsGood (attrPairs U) := by unfold attrPairs; infer_instance
instance : IsGood (label U) := by unfold label; infer_instance
instance : IsGood (metaR U) := by unfold metaR; infer_instance
instance : IsGood (information U) := by unfold information; infer_instance
instance : IsGood (characterEncoding U) := by unfold characterEncoding; infer_instance
instance : IsGood (characterEncodingProps U) := by unfold characterEncodingProps; infer_instance
instance : IsGood (format U) := by unfold format; infer_instance
instance : IsGood (conformance U) := by unfold conformance; infer_instance
instance : IsGood (conditional U) := by unfold conditional; infer_instance
instance : IsGood (cardinality U) := by unfold cardinality; infer_instance
instance : IsGood (entryCode U) := by unfold entryCode; infer_instance
instance : IsGood (entry U) := by unfold entry; infer_instance
instance : IsGood unit := by unfold unit; infer_instance
instance : IsGood (link U) := by unfold link; infer_instance
instance : IsGood framingMetadataKey := by unfold framingMetadataKey; infer_instance
instance : IsGood (framingMetadataValue U) := by unfold framingMetadataValue; infer_instance
instance : IsGood (framingMetadataPair U) := by unfold framingMetadataPair; infer_instance
instance : IsGood (framingMetadata U) := by unfold framingMetadata; infer_instance
instance : IsGood url := by unfold url; infer_instance
instance : IsGood jsonKey := by unfold jsonKey; infer_instance
instance (p : P) [IsGood p] : IsGood (jsonValue p) := by unfold jsonValue; infer_instance
instance (p : P) [IsGood p] : IsGood (jsonPair p) := by unfold jsonPair; infer_instance
instance (p : P) [IsGood p] : IsGood (jsonBody p) := by unfold jsonBody; infer_instance
instance : IsGood jsonObject := ⟨.fix fun p hp => have : IsGood p := ⟨hp⟩; good _⟩
instance : IsGood attrFramingKeyPair := by unfold attrFramingKeyPair; infer_instance
instance : IsGood attrFramingKeyPairs := by unfold attrFramingKeyPairs; infer_instance
instance : IsGood (attributeFraming U) := by unfold attributeFraming; infer_instance
instance : IsGood (flaggedAttrs U) := by unfold flaggedAttrs; infer_instance
instance : IsGood (classificationValue U) := by unfold classificationValue; infer_instance
instance : IsGood (classification U) := by unfold classification; infer_instance
instance : IsGood removeClassification := by unfold removeClassification; infer_instance
instance : IsGood (attributeR U) := by unfold attributeR; infer_instance
instance : IsGood removeAttribute := by unfold removeAttribute; infer_instance
instance : IsGood removeMeta := by unfold removeMeta; infer_instance
instance : IsGood removeLabel := by unfold removeLabel; infer_instance
instance : IsGood (objectTail U) := by unfold objectTail; infer_instance
instance : IsGood (ocaObject U) := by unfold ocaObject; infer_instance
instance : IsGood (removeOcaObject U) := by unfold removeOcaObject; infer_instance
instance : IsGood (add U) := by unfold add; infer_instance
instance : IsGood (remove U) := by unfold remove; infer_instance
instance : IsGood (commands U) := by unfold commands; infer_instance
instance : IsGood eoiTok := by unfold eoiTok; infer_instance
instance : IsGood (file U) := by unfold file; infer_instance

/-! ## Recursive rules -/

theorem escape_strict : Strict escape :=
  Strict.atomic _ ((Strict.lit _ _).seqLeft (good _))

theorem innerBody_guarded (k : Rule) (q : Char) : Guarded (innerBody k q) := by
  intro p p' n _ hg h
  have : IsGood p' := ⟨hg⟩
  exact Below.atomic _ (Below.seq (.refl _ _) (Below.opt (Below.seqStrict escape_strict h)) (good _))

/-- `inner` -/
theorem inner_eq : inner = innerBody .inner '"' inner :=
  (innerBody_guarded _ _).fix_eq fun p hp => have : IsGood p := ⟨hp⟩; good _

/-- `single_quoted_inner` -/
theorem singleQuotedInner_eq : singleQuotedInner = innerBody .singleQuotedInner '\'' singleQuotedInner :=
  (innerBody_guarded _ _).fix_eq fun p hp => have : IsGood p := ⟨hp⟩; good _

theorem arrayBody_guarded : Guarded (arrayBody U) := by
  intro p p' n _ hg h
  have : IsGood p' := ⟨hg⟩
  refine Below.compound _ (Below.seqStrict (Strict.lit _ _) (Below.seq (.refl _ _) (Below.seq ?_ (.refl _ _) (good _))
    (good _)))
  exact Below.alt (.refl _ _) (Below.alt (.refl _ _) h)

/-- `array_attr_type` -/
theorem arrayAttrType_eq : arrayAttrType U = arrayBody U (arrayAttrType U) :=
  (arrayBody_guarded U).fix_eq fun p hp => have : IsGood p := ⟨hp⟩; good _

theorem jsonBody_guarded : Guarded jsonBody := by
  intro p p' n hgp hg h
  have : IsGood p' := ⟨hg⟩
  have : IsGood p := ⟨hgp⟩
  have hv : Below n (jsonValue p) (jsonValue p') := Below.compound _ (Below.alt (.refl _ _) (Below.alt (.refl _ _) h))
  have hpair : Below n (jsonPair p) (jsonPair p') :=
    Below.compound _ (Below.seq (.refl _ _) (Below.seq (.refl _ _) (Below.seq (.refl _ _) (Below.seq (.refl _ _)
      (Below.seq hv (.refl _ _) (good _)) (good _)) (good _)) (good _)) (good _))
  refine Below.compound _ (Below.seqStrict (Strict.lit _ _) (Below.seq (Below.plus ?_ (good _)) (.refl _ _) (good _)))
  exact Below.seq (.refl _ _) (Below.seq (.refl _ _) (Below.seq hpair (.refl _ _) (good _)) (good _)) (good _)

/-- `json_object` -/
theorem jsonObject_eq : jsonObject = jsonBody jsonObject :=
  jsonBody_guarded.fix_eq fun p hp => have : IsGood p := ⟨hp⟩; good _

end Gr
end OCA
