import Verif.Spec.Explains
/-! The texts of the rules are the texts of the kinds of errors. -/
namespace Verif
open Verif.Spec Verif.Ast

section
variable [FloatFmt]

/-- What is shown of a diagnostic. -/
def ParseErrorKind.shown (k : ParseErrorKind) : Shown := ⟨k.message, k.help, k.spans⟩

/-- The same facts. -/
def Both (p : ParseErrorKind → Prop) (q : Shown → Prop) : Prop := (∀ k, p k → q k.shown) ∧ ∀ t, q t → ∃ k, p k ∧ k.shown = t

theorem text_between (what : Bytes) {lo hi : Int} {a b : Bytes} (h1 : decimalInt lo = a) (h2 : decimalInt hi = b) :
    mustBeBetween what lo hi = what ++ b!" must be between " ++ a ++ b!" and " ++ b := by rw [mustBeBetween, h1, h2]

theorem shown_messageNumber (i : Int') : (ParseErrorKind.invalidMessageNumber i.span).shown =
    ⟨mustBeBetween b!"message numbers" 1 536870911, none, [i.span]⟩ := by
  rw [text_between _ (a := b!"1") (b := b!"536870911") (by decide +kernel) (by decide +kernel)]; rfl

theorem shown_enumNumber (i : Int') : (ParseErrorKind.invalidEnumNumber i.span).shown =
    ⟨mustBeBetween b!"enum numbers" (-2147483648) 2147483647, none, [i.span]⟩ := by
  rw [text_between _ (a := b!"-2147483648") (b := b!"2147483647") (by decide +kernel) (by decide +kernel)]; rfl

theorem both_fieldNumber (i : Int') : Both (fun k => ¬ IsFieldNumber i ∧ k = .invalidMessageNumber i.span)
    (NumberText b!"message numbers" 1 536870911 i) := by
  constructor
  · rintro k ⟨h, rfl⟩; rw [shown_messageNumber]; exact .mk h
  · rintro t ⟨h⟩; exact ⟨_, ⟨h, rfl⟩, shown_messageNumber i⟩

theorem both_enumNumber (i : Int') : Both (fun k => ¬ IsEnumNumber i ∧ k = .invalidEnumNumber i.span)
    (NumberText b!"enum numbers" (-2147483648) 2147483647 i) := by
  have e : IsEnumNumber i ↔ Within (-2147483648) 2147483647 i := by
    unfold IsEnumNumber Within
    constructor <;> rintro ⟨h1, h2⟩ <;> exact ⟨by omega, by omega⟩
  constructor
  · rintro k ⟨h, rfl⟩; rw [shown_enumNumber]; exact .mk (fun h' => h (e.2 h'))
  · rintro t ⟨h⟩; exact ⟨_, ⟨fun h' => h (e.1 h'), rfl⟩, shown_enumNumber i⟩

theorem both_range {ok : Int' → Prop} {kind : Span → ParseErrorKind} {what lo hi}
    (h : ∀ i : Int', Both (fun k => ¬ ok i ∧ k = kind i.span) (NumberText what lo hi i)) (r : ReservedRange) :
    Both (BadRange ok kind r) (RangeText what lo hi r) := by
  constructor
  · intro k hk
    cases hk with
    | start hn => exact .start ((h _).1 _ ⟨hn, rfl⟩)
    | stop hj hn => exact .stop hj ((h _).1 _ ⟨hn, rfl⟩)
  · intro t ht
    cases ht with
    | start hn => obtain ⟨k, ⟨h1, rfl⟩, h2⟩ := (h _).2 _ hn; exact ⟨_, .start h1, h2⟩
    | stop hj hn => obtain ⟨k, ⟨h1, rfl⟩, h2⟩ := (h _).2 _ hn; exact ⟨_, .stop hj h1, h2⟩

theorem written_display (i : Int') : written i = i.display := by
  unfold written Int'.display
  split <;> rfl

theorem shown_range (w : Bytes) (i : Int') (lo hi : Int) : (ParseErrorKind.integerValueOutOfRange w i lo hi i.span).shown =
    ⟨b!"expected value to be " ++ w ++ b!", but the value " ++ written i ++ b!" is out of range",
        some (mustBeBetween b!"the value" lo hi ++ b!" inclusive"), [i.span]⟩ := by
  rw [written_display]
  simp [ParseErrorKind.shown, ParseErrorKind.message, ParseErrorKind.help, ParseErrorKind.spans, mustBeBetween]

theorem both_option (o : OptionBody) : Both (BadOption o) (OptionText o) := by
  have neg : ∀ i : Int', i.toInt < -(2 ^ 63) ↔ i.negative = true ∧ 2 ^ 63 < i.value := by
    intro i
    unfold Int'.toInt
    cases i.negative <;> simp <;> omega
  constructor
  · intro k hk
    cases hk with
    | ident h => exact .ident h
    | int h h1 h2 => rw [shown_range]; exact .int h rfl rfl ((neg _).2 ⟨h1, h2⟩)
  · intro t ht
    cases ht with
    | ident h => exact ⟨_, .ident h, rfl⟩
    | int h e1 e2 hlt =>
      subst e1 e2
      obtain ⟨h1, h2⟩ := (neg _).1 hlt
      exact ⟨_, .int h h1 h2, shown_range ..⟩

theorem both_default (t : Ty) (v : OptionValue) : Both (BadDefault t v) (DefaultText' t v) := by
  have fits : ∀ i lo hi, integerBounds t = some (lo, hi) →
      (¬ FitsIn t i ↔ ¬ Within lo hi i ∨ lo = 0 ∧ i.negative = true) := by
    intro i lo hi hb
    unfold FitsIn Within
    rw [hb]
    constructor
    · intro h
      by_cases hw : lo ≤ i.toInt ∧ i.toInt ≤ hi
      · refine .inr ?_
        by_cases h0 : lo = 0
        · refine ⟨h0, ?_⟩
          cases hn : i.negative with
          | true => rfl
          | false => exact absurd ⟨_, rfl, hw.1, hw.2, fun _ => hn⟩ h
        · exact absurd ⟨_, rfl, hw.1, hw.2, fun h => absurd h h0⟩ h
      · exact .inl hw
    · rintro h ⟨b, hb', h1, h2, h3⟩
      cases hb'
      rcases h with h | ⟨h, h'⟩
      · exact h ⟨h1, h2⟩
      · rw [h3 h] at h'; cases h'
  constructor
  · intro k hk
    cases hk with
    | sort h => exact .sort h
    | range h h1 h2 => rw [shown_range]; exact .range h h1 ((fits _ _ _ h1).1 h2)
    | utf8 h1 h2 h3 => exact .utf8 h1 h2 h3
  · intro t ht
    cases ht with
    | sort h => exact ⟨_, .sort h, rfl⟩
    | range h h1 h2 => exact ⟨_, .range h h1 ((fits _ _ _ h1).2 h2), shown_range ..⟩
    | utf8 h1 h2 h3 => exact ⟨_, .utf8 h1 h2 h3, rfl⟩

theorem both_field (syn : Syntax') (pl : Place) (x : Field) : Both (BadField syn pl x) (FieldText syn pl x) := by
  constructor
  · intro k hk
    cases hk with
    | number h => exact .number ((both_fieldNumber _).1 _ ⟨h, rfl⟩)
    | labelMissing h1 h2 h3 h4 => exact .labelMissing h1 h2 h3 h4
    | proto3Required h1 h2 h3 => exact .proto3Required h1 h2 h3
    | requiredExtension h1 h2 => exact .requiredExtension h1 h2
    | oneofLabel h1 h2 => exact .oneofLabel h1 h2
    | mapLabel h1 h2 => exact .mapLabel h1 h2
    | mapInOneof h1 => exact .mapInOneof h1
    | mapInExtend h1 => exact .mapInExtend h1
    | mapKey h1 h2 => exact .mapKey h1 h2
    | proto3Group h1 h2 => exact .proto3Group h1 h2
    | mapDefault h1 h2 => exact .noDefault h1 (.inl ⟨rfl, h2⟩)
    | repeatedDefault h1 h2 h3 => exact .noDefault h1 (.inr (.inl ⟨rfl, h2, h3⟩))
    | groupDefault h1 h2 => exact .noDefault h1 (.inr (.inr ⟨rfl, _, _, h2⟩))
    | proto3Default h1 h2 h3 h4 => exact .proto3Default h1 h2 h3 h4
    | badDefault h1 h2 h3 => exact .badDefault h1 h2 ((both_default _ _).1 _ h3)
    | badJsonName h1 h2 => exact .badJsonName h1 ((both_default _ _).1 _ h2)
    | badOption h1 h2 => exact .badOption h1 ((both_option _).1 _ h2)
  · intro t ht
    cases ht with
    | number h => obtain ⟨k, ⟨h1, rfl⟩, h2⟩ := (both_fieldNumber _).2 _ h; exact ⟨_, .number h1, h2⟩
    | labelMissing h1 h2 h3 h4 => exact ⟨_, .labelMissing h1 h2 h3 h4, rfl⟩
    | proto3Required h1 h2 h3 => exact ⟨_, .proto3Required h1 h2 h3, rfl⟩
    | requiredExtension h1 h2 => exact ⟨_, .requiredExtension h1 h2, rfl⟩
    | oneofLabel h1 h2 => exact ⟨_, .oneofLabel h1 h2, rfl⟩
    | mapLabel h1 h2 => exact ⟨_, .mapLabel h1 h2, rfl⟩
    | mapInOneof h1 => exact ⟨_, .mapInOneof h1, rfl⟩
    | mapInExtend h1 => exact ⟨_, .mapInExtend h1, rfl⟩
    | mapKey h1 h2 => exact ⟨_, .mapKey h1 h2, rfl⟩
    | proto3Group h1 h2 => exact ⟨_, .proto3Group h1 h2, rfl⟩
    | noDefault h1 h2 =>
      rcases h2 with ⟨rfl, h2⟩ | ⟨rfl, h2, h3⟩ | ⟨rfl, sp, b, h2⟩
      · exact ⟨_, .mapDefault h1 h2, rfl⟩
      · exact ⟨_, .repeatedDefault h1 h2 h3, rfl⟩
      · exact ⟨_, .groupDefault h1 h2, rfl⟩
    | proto3Default h1 h2 h3 h4 => exact ⟨_, .proto3Default h1 h2 h3 h4, rfl⟩
    | badDefault h1 h2 h3 => obtain ⟨k, h3, h4⟩ := (both_default _ _).2 _ h3; exact ⟨k, .badDefault h1 h2 h3, h4⟩
    | badJsonName h1 h2 => obtain ⟨k, h3, h4⟩ := (both_default _ _).2 _ h2; exact ⟨k, .badJsonName h1 h3, h4⟩
    | badOption h1 h2 => obtain ⟨k, h3, h4⟩ := (both_option _).2 _ h2; exact ⟨k, .badOption h1 h3, h4⟩

theorem both_rules (f : File) : Both (Violation f) (RuleText f) := by
  have hr := both_range both_fieldNumber
  have he := both_range both_enumNumber
  constructor
  · intro k hk
    cases hk with
    | field h1 h2 => exact .field h1 ((both_field _ _ _).1 _ h2)
    | reservedRange h1 h2 h3 => exact .reservedRange h1 h2 ((hr _).1 _ h3)
    | extensionRange h1 h2 h3 => exact .extensionRange h1 h2 ((hr _).1 _ h3)
    | extensionOption h1 h2 h3 h4 => exact .extensionOption h1 h2 h3 ((both_option _).1 _ h4)
    | messageOption h1 h2 h3 => exact .messageOption h1 h2 ((both_option _).1 _ h3)
    | emptyOneof h1 h2 h3 => exact .emptyOneof h1 h2 h3
    | oneofOption h1 h2 h3 h4 => exact .oneofOption h1 h2 h3 ((both_option _).1 _ h4)
    | enumNumber h1 h2 h3 => exact .enumNumber h1 h2 ((both_enumNumber _).1 _ ⟨h3, rfl⟩)
    | enumRange h1 h2 h3 => exact .enumRange h1 h2 ((he _).1 _ h3)
    | enumValueOption h1 h2 h3 h4 => exact .enumValueOption h1 h2 h3 ((both_option _).1 _ h4)
    | enumOption h1 h2 h3 => exact .enumOption h1 h2 ((both_option _).1 _ h3)
    | methodOption h1 h2 h3 h4 => exact .methodOption h1 h2 h3 ((both_option _).1 _ h4)
    | serviceOption h1 h2 h3 => exact .serviceOption h1 h2 ((both_option _).1 _ h3)
    | fileOption h1 h2 => exact .fileOption h1 ((both_option _).1 _ h2)
  · intro t ht
    cases ht with
    | field h1 h2 => obtain ⟨k, h3, h4⟩ := (both_field _ _ _).2 _ h2; exact ⟨k, .field h1 h3, h4⟩
    | reservedRange h1 h2 h3 => obtain ⟨k, h3, h4⟩ := (hr _).2 _ h3; exact ⟨k, .reservedRange h1 h2 h3, h4⟩
    | extensionRange h1 h2 h3 => obtain ⟨k, h3, h4⟩ := (hr _).2 _ h3; exact ⟨k, .extensionRange h1 h2 h3, h4⟩
    | extensionOption h1 h2 h3 h5 => obtain ⟨k, h5, h4⟩ := (both_option _).2 _ h5; exact ⟨k, .extensionOption h1 h2 h3 h5, h4⟩
    | messageOption h1 h2 h5 => obtain ⟨k, h5, h4⟩ := (both_option _).2 _ h5; exact ⟨k, .messageOption h1 h2 h5, h4⟩
    | emptyOneof h1 h2 h3 => exact ⟨_, .emptyOneof h1 h2 h3, rfl⟩
    | oneofOption h1 h2 h3 h5 => obtain ⟨k, h5, h4⟩ := (both_option _).2 _ h5; exact ⟨k, .oneofOption h1 h2 h3 h5, h4⟩
    | enumNumber h1 h2 h3 => obtain ⟨k, ⟨h3, rfl⟩, h4⟩ := (both_enumNumber _).2 _ h3; exact ⟨_, .enumNumber h1 h2 h3, h4⟩
    | enumRange h1 h2 h3 => obtain ⟨k, h3, h4⟩ := (he _).2 _ h3; exact ⟨k, .enumRange h1 h2 h3, h4⟩
    | enumValueOption h1 h2 h3 h5 => obtain ⟨k, h5, h4⟩ := (both_option _).2 _ h5; exact ⟨k, .enumValueOption h1 h2 h3 h5, h4⟩
    | enumOption h1 h2 h5 => obtain ⟨k, h5, h4⟩ := (both_option _).2 _ h5; exact ⟨k, .enumOption h1 h2 h5, h4⟩
    | methodOption h1 h2 h3 h5 => obtain ⟨k, h5, h4⟩ := (both_option _).2 _ h5; exact ⟨k, .methodOption h1 h2 h3 h5, h4⟩
    | serviceOption h1 h2 h5 => obtain ⟨k, h5, h4⟩ := (both_option _).2 _ h5; exact ⟨k, .serviceOption h1 h2 h5, h4⟩
    | fileOption h1 h5 => obtain ⟨k, h5, h4⟩ := (both_option _).2 _ h5; exact ⟨k, .fileOption h1 h5, h4⟩

end
end Verif
