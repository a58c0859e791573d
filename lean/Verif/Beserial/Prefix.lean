import Verif.Beserial.Props
import Mathlib.Data.List.Forall2
/-!
# C91: encodings delimit themselves

No encoding is a proper prefix of another one, cut-off encodings are refused, and concatenated encodings split in one way
only.
-/
namespace Nimiq.Beserial
open Spec

/-- C91. If the encoding of one value is a prefix of the encoding of another one, the values are the same. -/
theorem C91_prefix_free (t : Ty) (ht : Good t) (v1 v2 : t.Val) (b1 b2 : Bytes) (h1 : enc t {} v1 = some b1)
    (h2 : enc t {} v2 = some b2) (hp : b1 <+: b2) : v1 = v2 ∧ b1 = b2 := by
  obtain ⟨r, rfl⟩ := hp
  have e1 := ((C29_round_trip t ht v1 b1 h1).2.2 t.zero r).1
  have e2 := ((C29_round_trip t ht v2 _ h2).2.2 t.zero []).1
  rw [List.append_nil, e1] at e2
  injection e2 with e3 e4
  exact ⟨e3, by rw [e4, List.append_nil]⟩

/-- C91. What Marshal wrote, cut off anywhere, is refused by Unmarshal: an error, neither a value nor a panic. -/
theorem C91_truncated (t : Ty) (ht : Good t) (hs : Safe t) (v prev : t.Val) (data cut : Bytes)
    (h : enc t {} v = some data) (hp : cut <+: data) (hne : cut ≠ data) :
    ∃ e r, Unmarshal t prev cut = .err e r := by
  cases hu : Unmarshal t prev cut with
  | err e r => exact ⟨e, r, rfl⟩
  | panic => exact absurd hu (C35_no_panic t hs prev cut noLimit fun _ _ => rfl).2
  | ok v' r =>
    obtain ⟨bs, hbs, rfl⟩ := decode_canon noLimit t {} v' prev cut r ht hu
    have h2 := C91_prefix_free t ht v' v bs data hbs h (List.IsPrefix.trans (List.prefix_append _ _) hp)
    rw [h2.2] at hp
    have hl := hp.length_le
    rw [List.length_append] at hl
    have hr : r = [] := List.eq_nil_of_length_eq_zero (by omega)
    rw [h2.2, hr, List.append_nil] at hne
    exact absurd rfl hne

/-- C91. Encodings written one after the other (none of them empty) split in one way only. -/
theorem C91_stream (t : Ty) (ht : Good t) (h1 : 1 ≤ minSize t {}) : ∀ (vs ws : List t.Val) (bs cs : List Bytes),
    List.Forall₂ (fun v b => enc t {} v = some b) vs bs → List.Forall₂ (fun v b => enc t {} v = some b) ws cs →
    bs.flatten = cs.flatten → vs = ws := by
  have pos : ∀ (v : t.Val) b, enc t {} v = some b → b ≠ [] := fun v b h e => by
    have := enc_min t {} v b ht h
    rw [e, List.length_nil] at this; omega
  intro vs ws bs cs hv
  induction hv generalizing ws cs with
  | nil =>
    intro hw e
    cases hw with
    | nil => rfl
    | cons h _ =>
      rw [List.flatten_nil, List.flatten_cons] at e
      exact absurd (List.append_eq_nil_iff.mp e.symm).1 (pos _ _ h)
  | @cons v b vs bs h hv ih =>
    intro hw e
    cases hw with
    | nil =>
      rw [List.flatten_nil, List.flatten_cons] at e
      exact absurd (List.append_eq_nil_iff.mp e).1 (pos _ _ h)
    | @cons w c ws cs h' hw =>
      rw [List.flatten_cons, List.flatten_cons] at e
      have e1 := ((C29_round_trip t ht v b h).2.2 t.zero bs.flatten).1
      have e2 := ((C29_round_trip t ht w c h').2.2 t.zero cs.flatten).1
      rw [e, e2] at e1
      injection e1 with e3 e4
      rw [e3, ih ws cs hw e4.symm]

example : Good exTy ∧ enc exTy {} exVal = some exBytes ∧ exBytes.take 12 <+: exBytes ∧ exBytes.take 12 ≠ exBytes :=
  ⟨exTy_good, exVal_enc, List.take_prefix _ _, by decide⟩

end Nimiq.Beserial
