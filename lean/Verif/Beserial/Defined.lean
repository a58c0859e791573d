import Verif.Beserial.More
/-!
# Which values the specification gives an encoding
-/
namespace Nimiq.Beserial
open Spec

theorem all_isSome {α} {f : α → Option Bytes} (l : List α) : (all f l).isSome ↔ ∀ x ∈ l, (f x).isSome := by
  induction l with
  | nil => simp [all]
  | cons x xs ih =>
    simp only [all, Option.bind_eq_bind, List.mem_cons, forall_eq_or_imp]
    cases hx : f x with
    | none => simp
    | some a =>
      rw [← ih]
      cases all f xs <;> simp

theorem len_isSome {ts : Tags} {n : Nat} : (len ts n).isSome ↔ ts.lenTag ≠ none ∧ ∀ k, ts.lenTag = some k → n ≤ maxLen k := by
  unfold len
  cases hk : ts.lenTag with
  | none => simp
  | some k =>
    by_cases hn : n ≤ maxLen k
    · simp [hn]
    · simp [hn]

theorem bind_append_isSome (a b : Option Bytes) : (a.bind fun x => b.bind fun y => some (x ++ y)).isSome ↔
    a.isSome ∧ b.isSome := by
  cases a <;> cases b <;> simp

theorem isSome_bind_pure {α β} (x : Option α) (f : α → β) : (x.bind fun a => some (f a)).isSome ↔ x.isSome := by
  cases x <;> simp

theorem forall_and_mem {α} (l : List α) (P Q : α → Prop) :
    (∀ x ∈ l, P x ∧ Q x) ↔ (∀ x ∈ l, P x) ∧ ∀ x ∈ l, Q x :=
  ⟨fun h => ⟨fun x hx => (h x hx).1, fun x hx => (h x hx).2⟩, fun h x hx => ⟨h.1 x hx, h.2 x hx⟩⟩

mutual
theorem enc_isSome : ∀ (t : Ty) (ts : Tags) (v : t.Val), Wf t →
    ((enc t ts v).isSome ↔ Encodable t ts v ∧ Fits t ts v)
  | .num _, _, _, _ | .bool, _, _, _ | .byteArr _, _, _, _ => by simp [enc, Encodable, Fits]
  | .str, ts, v, _ => by
    simp only [enc, Encodable, Fits, Option.bind_eq_bind, Option.pure_def, isSome_bind_pure, len_isSome]
  | .byteSlice, ts, v, _ => by
    simp only [enc, Encodable, Fits, Option.bind_eq_bind, Option.pure_def, isSome_bind_pure, len_isSome]
  | .arr n t, ts, v, hw => by
    simp only [Wf] at hw
    simp only [enc, Encodable, Fits, all_isSome, enc_isSome t {} _ hw, forall_and_mem]
  | .slice t, ts, v, hw => by
    simp only [Wf] at hw
    simp only [enc, Encodable, Fits, Option.bind_eq_bind, Option.pure_def, bind_append_isSome, len_isSome, all_isSome,
      enc_isSome t {} _ hw, forall_and_mem]
    constructor
    · rintro ⟨⟨a, b⟩, c, d⟩; exact ⟨⟨a, c⟩, b, d⟩
    · rintro ⟨⟨a, c⟩, b, d⟩; exact ⟨⟨a, b⟩, c, d⟩
  | .ptr t, ts, v, hw => by
    simp only [Wf] at hw
    simp only [enc, Encodable, Fits, hw.2, Bool.false_eq_true, if_false]
    by_cases ho : ts.optional
    · cases v with
      | none => simp [ho]
      | some x =>
        simp only [ho, if_true, Option.bind_eq_bind, Option.pure_def, isSome_bind_pure, enc_isSome t ts x hw.1]
    · cases v with
      | none => simp [ho]
      | some x => simp only [ho, Bool.false_eq_true, if_false, enc_isSome t ts x hw.1]
  | .struct fs, ts, v, hw => by
    simp only [Wf] at hw
    simp only [enc, Encodable, Fits, encFields_isSome fs v hw]
  | .custom c, ts, v, hw => by simp [enc, Encodable, Fits]
  | .unsupported _ _, _, _, _ => by simp [enc, Encodable]
theorem encFields_isSome : ∀ (fs : Fields) (v : fs.Val), WfFields fs →
    ((encFields fs v).isSome ↔ EncodableFields fs v ∧ FitsFields fs v)
  | .nil, _, _ => by simp [encFields, EncodableFields, FitsFields]
  | .cons tag t fs, v, hw => by
    simp only [WfFields] at hw
    cases hts : fieldTags tag with
    | none => exact absurd hts hw.1
    | some ts =>
      simp only [encFields, EncodableFields, FitsFields, hts, Option.bind_eq_bind, Option.pure_def, Option.bind_some,
        Option.getD_some, bind_append_isSome, enc_isSome t ts v.1 hw.2.1, encFields_isSome fs v.2 hw.2.2]
      constructor
      · rintro ⟨⟨a, b⟩, c, d⟩; exact ⟨⟨a, c⟩, b, d⟩
      · rintro ⟨⟨a, c⟩, b, d⟩; exact ⟨⟨a, b⟩, c, d⟩
end

end Nimiq.Beserial
