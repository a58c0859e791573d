import Verif.Beserial.Round
/-!
# Byte counts, panics, sizes, errors, tags
-/
namespace Nimiq.Beserial
open Spec

/-! ## Unread data -/

/-- The unread data, if the decoder returned. -/
def Res.rest {α} : Res α → Option Bytes
  | .ok _ r => some r
  | .err _ r => some r
  | .panic => none

@[simp] theorem Res.rest_map {α β} (f : α → β) (x : Res α) : (x.map f).rest = x.rest := by cases x <;> rfl

theorem pop_suffix {n : Nat} {d a r : Bytes} (h : pop n d = some (a, r)) : r <:+ d := by
  obtain ⟨_, rfl⟩ := pop_some h; exact ⟨a, rfl⟩

theorem readLen_suffix {ts : Tags} {d r : Bytes} (h : (readLen ts d).rest = some r) : r <:+ d := by
  unfold readLen at h
  split at h
  · cases h; exact List.suffix_refl d
  · split at h
    · cases h; exact List.suffix_refl d
    · rename_i hp
      split at h <;> cases h <;> exact pop_suffix hp

theorem decLoop_suffix {α} {g : α → Bytes → Res α} (hg : ∀ p d r, (g p d).rest = some r → r <:+ d) :
    ∀ (prev : List α) (d r : Bytes), (decLoop g prev d).rest = some r → r <:+ d := by
  intro prev
  induction prev with
  | nil => intro d r h; cases h; exact List.suffix_refl d
  | cons p prev ih =>
    intro d r h
    simp only [decLoop] at h
    cases hgp : g p d with
    | panic => simp [hgp, Res.rest] at h
    | err e d' =>
      simp only [hgp] at h
      cases h
      exact hg p d r (by rw [hgp]; rfl)
    | ok v d' =>
      have h1 := hg p d d' (by rw [hgp]; rfl)
      simp only [hgp] at h
      have : (decLoop g prev d').rest = some r := by
        revert h
        cases decLoop g prev d' <;> exact id
      exact (ih d' r this).trans h1

mutual
theorem decode_suffix (lim : Nat → Bool) : ∀ (t : Ty) (ts : Tags) (prev : t.Val) (d r : Bytes),
    (decode lim t prev ts d).rest = some r → r <:+ d
  | .num k, ts, prev, d, r, h => by
    simp only [decode] at h
    split at h
    · cases h; exact List.suffix_refl d
    · rename_i hp
      cases h; exact pop_suffix hp
  | .bool, ts, prev, d, r, h => by
    simp only [decode] at h
    split at h
    · cases h; exact List.suffix_refl d
    · rename_i hp
      have := pop_suffix hp
      split at h
      · cases h; exact this
      · split at h <;> cases h <;> exact this
  | .str, ts, prev, d, r, h => by
    simp only [decode] at h
    cases hr : readLen ts d with
    | panic => simp [hr, Res.rest] at h
    | err e d' =>
      simp only [hr] at h; cases h
      exact readLen_suffix (by rw [hr]; rfl)
    | ok u d' =>
      have h1 : d' <:+ d := readLen_suffix (by rw [hr]; rfl)
      simp only [hr] at h
      split at h
      · cases h; exact h1
      · rename_i hp
        cases h; exact (pop_suffix hp).trans h1
  | .byteArr n, ts, prev, d, r, h => by
    simp only [decode] at h
    split at h
    · cases h; exact List.suffix_refl d
    · rename_i hp
      cases h; exact pop_suffix hp
  | .byteSlice, ts, prev, d, r, h => by
    simp only [decode] at h
    cases hr : readLen ts d with
    | panic => simp [hr, Res.rest] at h
    | err e d' =>
      simp only [hr] at h; cases h
      exact readLen_suffix (by rw [hr]; rfl)
    | ok u d' =>
      have h1 : d' <:+ d := readLen_suffix (by rw [hr]; rfl)
      simp only [hr] at h
      split at h
      · cases h; exact h1
      · rename_i hp
        split at h
        · cases h; exact (pop_suffix hp).trans h1
        · cases h
  | .arr n t, ts, prev, d, r, h => by
    simp only [decode] at h
    apply decLoop_suffix (fun p d r => decode_suffix lim t {} p d r) prev.val d r
    revert h
    cases decLoop (fun p d => decode lim t p {} d) prev.val d <;> exact id
  | .slice t, ts, prev, d, r, h => by
    simp only [decode] at h
    cases hr : readLen ts d with
    | panic => simp [hr, Res.rest] at h
    | err e d' =>
      simp only [hr] at h; cases h
      exact readLen_suffix (by rw [hr]; rfl)
    | ok u d' =>
      have h1 : d' <:+ d := readLen_suffix (by rw [hr]; rfl)
      simp only [hr] at h
      split at h
      · cases h; exact h1
      · split at h
        · rw [Res.rest_map] at h
          exact (decLoop_suffix (fun p d r => decode_suffix lim t {} p d r) _ d' r h).trans h1
        · cases h
  | .ptr t, ts, prev, d, r, h => by
    simp only [decode] at h
    split at h
    · rename_i f _
      cases prev with
      | none => simp [Res.rest] at h
      | some p =>
        simp only [Res.rest_map, runCustom] at h
        cases hf : f p d with
        | panic => simp [hf, Res.rest] at h
        | err e => simp only [hf] at h; cases h; exact List.suffix_refl d
        | ok x =>
          simp only [hf] at h
          split at h
          · cases h
          · cases h; exact List.drop_suffix _ _
    · split at h
      · split at h
        · cases h; exact List.suffix_refl d
        · rename_i hp
          have h1 := pop_suffix hp
          split at h
          · cases h; exact h1
          · split at h
            · rw [Res.rest_map] at h
              exact (decode_suffix lim t ts _ _ _ h).trans h1
            · cases h; exact h1
      · rw [Res.rest_map] at h
        exact decode_suffix lim t ts _ _ _ h
  | .struct fs, ts, prev, d, r, h => by
    simp only [decode] at h
    exact decodeFields_suffix lim fs prev d r h
  | .custom c, ts, prev, d, r, h => by
    simp only [decode, runCustom] at h
    cases hf : c.dec prev d with
    | panic => simp [hf, Res.rest] at h
    | err e => simp only [hf] at h; cases h; exact List.suffix_refl d
    | ok x =>
      simp only [hf] at h
      split at h
      · cases h
      · cases h; exact List.drop_suffix _ _
  | .unsupported α z, ts, prev, d, r, h => by
    simp only [decode] at h; cases h; exact List.suffix_refl d
theorem decodeFields_suffix (lim : Nat → Bool) : ∀ (fs : Fields) (prev : fs.Val) (d r : Bytes),
    (decodeFields lim fs prev d).rest = some r → r <:+ d
  | .nil, prev, d, r, h => by simp only [decodeFields] at h; cases h; exact List.suffix_refl d
  | .cons tag t fs, prev, d, r, h => by
    simp only [decodeFields] at h
    split at h
    · cases h
    · rename_i ts _
      cases hd : decode lim t prev.1 ts d with
      | panic => simp [hd, Res.rest] at h
      | err e d' =>
        simp only [hd] at h; cases h
        exact decode_suffix lim t ts prev.1 d _ (by rw [hd]; rfl)
      | ok v d' =>
        have h1 := decode_suffix lim t ts prev.1 d d' (by rw [hd]; rfl)
        simp only [hd, Res.rest_map] at h
        exact (decodeFields_suffix lim fs prev.2 d' r h).trans h1
end

/-! ## No panics, bounded allocations -/

theorem readLen_ne_panic (ts : Tags) (d : Bytes) : readLen ts d ≠ .panic := by
  unfold readLen
  split
  · simp
  · split
    · simp
    · split <;> simp

theorem Res.map_ne_panic {α β} {f : α → β} {x : Res α} (h : x ≠ .panic) : x.map f ≠ .panic := by
  cases x <;> simp_all [Res.map]

theorem decLoop_ne_panic {α} {g : α → Bytes → Res α} (L : Nat)
    (hs : ∀ p d r, (g p d).rest = some r → r <:+ d) (hg : ∀ p d, d.length ≤ L → g p d ≠ .panic) :
    ∀ (prev : List α) (d : Bytes), d.length ≤ L → decLoop g prev d ≠ .panic := by
  intro prev
  induction prev with
  | nil => intro d _; simp [decLoop]
  | cons p prev ih =>
    intro d hd
    simp only [decLoop]
    cases hgp : g p d with
    | panic => exact absurd hgp (hg p d hd)
    | err e d' => simp
    | ok v d' =>
      have h1 := (hs p d d' (by rw [hgp]; rfl)).length_le
      have h2 := ih d' (by omega)
      simp only
      cases hl : decLoop g prev d' with
      | panic => exact absurd hl h2
      | err e d'' => simp
      | ok l d'' => simp

mutual
/-- If memory for `L` elements can always be allocated, decoding at most `L` bytes does not panic. -/
theorem decode_ne_panic (lim : Nat → Bool) (L : Nat) (hlim : ∀ n, n ≤ L → lim n = true) : ∀ (t : Ty) (ts : Tags)
    (prev : t.Val) (d : Bytes), Safe t → d.length ≤ L → decode lim t prev ts d ≠ .panic
  | .num k, ts, prev, d, _, hd => by
    simp only [decode]; split <;> simp
  | .bool, ts, prev, d, _, hd => by
    simp only [decode]
    split
    · simp
    · split
      · simp
      · split <;> simp
  | .str, ts, prev, d, _, hd => by
    simp only [decode]
    cases hr : readLen ts d with
    | panic => exact absurd hr (readLen_ne_panic ts d)
    | err e d' => simp
    | ok u d' => simp only; split <;> simp
  | .byteArr n, ts, prev, d, _, hd => by
    simp only [decode]; split <;> simp
  | .byteSlice, ts, prev, d, _, hd => by
    simp only [decode]
    cases hr : readLen ts d with
    | panic => exact absurd hr (readLen_ne_panic ts d)
    | err e d' => simp
    | ok u d' =>
      have h1 : d' <:+ d := readLen_suffix (by rw [hr]; rfl)
      have := h1.length_le
      simp only
      split
      · simp
      · rename_i b d'' hp
        obtain ⟨hl, he⟩ := pop_some hp
        have h2 : u ≤ L := by
          have := congrArg List.length he
          rw [List.length_append] at this
          omega
        rw [if_pos (hlim u h2)]
        simp
  | .arr n t, ts, prev, d, hs, hd => by
    simp only [Safe] at hs
    simp only [decode]
    have := decLoop_ne_panic L (fun p d r => decode_suffix lim t {} p d r)
      (fun p d hd => decode_ne_panic lim L hlim t {} p d hs hd) prev.val d hd
    cases hl : decLoop (fun p d => decode lim t p {} d) prev.val d with
    | panic => exact absurd hl this
    | err e d' => simp
    | ok l d' => simp
  | .slice t, ts, prev, d, hs, hd => by
    simp only [Safe] at hs
    simp only [decode]
    cases hr : readLen ts d with
    | panic => exact absurd hr (readLen_ne_panic ts d)
    | err e d' => simp
    | ok u d' =>
      have h1 : d' <:+ d := readLen_suffix (by rw [hr]; rfl)
      have := h1.length_le
      simp only
      split
      · simp
      · rename_i hu
        rw [if_pos (hlim u (by omega))]
        exact Res.map_ne_panic (decLoop_ne_panic L (fun p d r => decode_suffix lim t {} p d r)
          (fun p d hd => decode_ne_panic lim L hlim t {} p d hs hd) _ d' (by omega))
  | .ptr t, ts, prev, d, hs, hd => by
    simp only [Safe] at hs
    simp only [decode, customDec_none hs.2]
    split
    · split
      · simp
      · rename_i hp
        have := (pop_suffix hp).length_le
        split
        · simp
        · split
          · exact Res.map_ne_panic (decode_ne_panic lim L hlim t ts _ _ hs.1 (by omega))
          · simp
    · exact Res.map_ne_panic (decode_ne_panic lim L hlim t ts _ _ hs.1 hd)
  | .struct fs, ts, prev, d, hs, hd => by
    simp only [Safe] at hs
    simp only [decode]
    exact decodeFields_ne_panic lim L hlim fs prev d hs hd
  | .custom c, ts, prev, d, hs, hd => by
    simp only [Safe] at hs
    simp only [decode, runCustom]
    cases hf : c.dec prev d with
    | panic => exact absurd hf (hs prev d).1
    | err e => simp
    | ok x =>
      have := (hs prev d).2 x.1 x.2 hf
      simp only
      rw [if_neg (by omega)]
      simp
  | .unsupported α z, ts, prev, d, _, hd => by simp [decode]
theorem decodeFields_ne_panic (lim : Nat → Bool) (L : Nat) (hlim : ∀ n, n ≤ L → lim n = true) : ∀ (fs : Fields)
    (prev : fs.Val) (d : Bytes), SafeFields fs → d.length ≤ L → decodeFields lim fs prev d ≠ .panic
  | .nil, prev, d, _, hd => by simp [decodeFields]
  | .cons tag t fs, prev, d, hs, hd => by
    simp only [SafeFields] at hs
    simp only [decodeFields]
    cases hts : fieldTags tag with
    | none => exact absurd hts hs.1
    | some ts =>
      simp only
      cases hdec : decode lim t prev.1 ts d with
      | panic => exact absurd hdec (decode_ne_panic lim L hlim t ts prev.1 d hs.2.1 hd)
      | err e d' => simp
      | ok v d' =>
        have h1 := (decode_suffix lim t ts prev.1 d d' (by rw [hdec]; rfl)).length_le
        exact Res.map_ne_panic (decodeFields_ne_panic lim L hlim fs prev.2 d' hs.2.2 (by omega))
end

/-! ## Errors of Marshal -/

theorem foldlM_good {α} {g : Bytes → α → Out Bytes} (l : List α)
    (h : ∀ x ∈ l, ∃ bs, ∀ b, g b x = .ok (b ++ bs)) : ∃ bs, ∀ b, l.foldlM g b = .ok (b ++ bs) := by
  induction l with
  | nil => exact ⟨[], by simp [List.foldlM]⟩
  | cons x xs ih =>
    obtain ⟨a, ha⟩ := h x (by simp)
    obtain ⟨c, hc⟩ := ih (fun y hy => h y (by simp [hy]))
    exact ⟨a ++ c, fun b => by rw [List.foldlM_cons, ha b, Out.bind_ok, hc, List.append_assoc]⟩

theorem foldlM_bad {α} {P : α → Prop} {g : Bytes → α → Out Bytes} (l : List α)
    (h1 : ∀ x ∈ l, P x → ∃ bs, ∀ b, g b x = .ok (b ++ bs)) (h2 : ∀ x ∈ l, ¬ P x → ∀ b, ∃ e, g b x = .err e)
    (hbad : ¬ ∀ x ∈ l, P x) : ∀ b, ∃ e, l.foldlM g b = .err e := by
  induction l with
  | nil => exact absurd (by simp) hbad
  | cons x xs ih =>
    intro b
    rw [List.foldlM_cons]
    by_cases hx : P x
    · obtain ⟨a, ha⟩ := h1 x (by simp) hx
      rw [ha b, Out.bind_ok]
      apply ih (fun y hy => h1 y (by simp [hy])) (fun y hy => h2 y (by simp [hy]))
      intro hall
      apply hbad
      intro y hy
      rcases List.mem_cons.mp hy with rfl | hy
      · exact hx
      · exact hall y hy
    · obtain ⟨e, he⟩ := h2 x (by simp) hx b
      exact ⟨e, by rw [he, Out.bind_err]⟩

mutual
theorem marshal_encodable : ∀ (t : Ty) (ts : Tags) (v : t.Val), Wf t → TargetsOk t ts v →
    (Encodable t ts v → ∃ bs, ∀ b, marshal t v b ts = .ok (b ++ bs)) ∧
    (¬ Encodable t ts v → ∀ b, ∃ e, marshal t v b ts = .err e)
  | .num k, ts, v, _, _ => ⟨fun _ => ⟨_, fun b => by simp only [marshal]; rfl⟩, fun h => absurd (by simp [Encodable]) h⟩
  | .bool, ts, v, _, _ => ⟨fun _ => ⟨_, fun b => by simp only [marshal]; rfl⟩, fun h => absurd (by simp [Encodable]) h⟩
  | .byteArr n, ts, v, _, _ =>
    ⟨fun _ => ⟨_, fun b => by simp only [marshal]; rfl⟩, fun h => absurd (by simp [Encodable]) h⟩
  | .str, ts, v, _, _ => by
    simp only [Encodable, marshal]
    cases ts.lenTag with
    | none => simp
    | some k => exact ⟨fun _ => ⟨putLen k v.length ++ v, fun b => by simp⟩, fun h => absurd (by simp) h⟩
  | .byteSlice, ts, v, _, _ => by
    simp only [Encodable, marshal]
    cases ts.lenTag with
    | none => simp
    | some k => exact ⟨fun _ => ⟨putLen k v.length ++ v, fun b => by simp⟩, fun h => absurd (by simp) h⟩
  | .arr n t, ts, v, hw, hp => by
    simp only [Wf] at hw
    simp only [TargetsOk] at hp
    simp only [Encodable, marshal]
    have ih := fun x (hx : x ∈ v.val) => marshal_encodable t {} x hw (hp x hx)
    exact ⟨fun he => foldlM_good v.val fun x hx => (ih x hx).1 (he x hx),
      fun he => foldlM_bad v.val (fun x hx => (ih x hx).1) (fun x hx => (ih x hx).2) he⟩
  | .slice t, ts, v, hw, hp => by
    simp only [Wf] at hw
    simp only [TargetsOk] at hp
    simp only [Encodable, marshal]
    have ih := fun x (hx : x ∈ v) => marshal_encodable t {} x hw (hp x hx)
    cases ts.lenTag with
    | none => simp
    | some k =>
      simp only [ne_eq, reduceCtorEq, not_false_eq_true, true_and]
      refine ⟨fun he => ?_, fun he b => foldlM_bad v (fun x hx => (ih x hx).1) (fun x hx => (ih x hx).2) he _⟩
      obtain ⟨bs, hbs⟩ := foldlM_good v fun x hx => (ih x hx).1 (he x hx)
      exact ⟨putLen k v.length ++ bs, fun b => by rw [hbs, List.append_assoc]⟩
  | .ptr t, ts, v, hw, hp => by
    simp only [Wf] at hw
    simp only [Encodable, marshal, customEnc_none hw.2]
    cases v with
    | none =>
      by_cases ho : ts.optional
      · simp only [ho, if_true]
        exact ⟨fun _ => ⟨[0], fun b => rfl⟩, fun h => absurd trivial h⟩
      · simp [ho]
    | some x =>
      simp only [TargetsOk] at hp
      obtain ⟨bs, hbs⟩ := (marshal_encodable t ts x hw.1 hp.2).1 hp.1
      refine ⟨fun _ => ?_, fun h => absurd hp.1 h⟩
      by_cases ho : ts.optional
      · exact ⟨1 :: bs, fun b => by simp [ho, hbs]⟩
      · exact ⟨bs, fun b => by simp [ho, hbs]⟩
  | .struct fs, ts, v, hw, hp => by
    simp only [Wf] at hw
    simp only [TargetsOk] at hp
    simp only [Encodable, marshal]
    exact marshalFields_encodable fs v hw hp
  | .custom c, ts, v, hw, hp => by
    simp only [Wf] at hw
    simp only [Encodable, marshal]
    cases hs : c.spec v with
    | none =>
      simp only [Option.isSome_none, Bool.false_eq_true, false_implies, not_false_eq_true, true_implies, true_and]
      exact fun b => hw.2 v b hs
    | some bs => exact ⟨fun _ => ⟨bs, fun b => hw.1 v bs b hs⟩, fun h => absurd rfl h⟩
  | .unsupported α z, ts, v, _, _ => by simp [Encodable, marshal]
theorem marshalFields_encodable : ∀ (fs : Fields) (v : fs.Val), WfFields fs → TargetsOkFields fs v →
    (EncodableFields fs v → ∃ bs, ∀ b, marshalFields fs v b = .ok (b ++ bs)) ∧
    (¬ EncodableFields fs v → ∀ b, ∃ e, marshalFields fs v b = .err e)
  | .nil, v, _, _ => ⟨fun _ => ⟨[], fun b => by simp [marshalFields]⟩, fun h => absurd (by simp [EncodableFields]) h⟩
  | .cons tag t fs, v, hw, hp => by
    simp only [WfFields] at hw
    simp only [TargetsOkFields] at hp
    simp only [EncodableFields, marshalFields]
    cases hts : fieldTags tag with
    | none => exact absurd hts hw.1
    | some ts =>
      rw [hts, Option.getD_some] at hp
      simp only [Option.getD_some]
      have ih := marshal_encodable t ts v.1 hw.2.1 hp.1
      have ih' := marshalFields_encodable fs v.2 hw.2.2 hp.2
      refine ⟨fun he => ?_, fun he b => ?_⟩
      · obtain ⟨a, ha⟩ := ih.1 he.1
        obtain ⟨c, hc⟩ := ih'.1 he.2
        exact ⟨a ++ c, fun b => by simp only [ha, hc, List.append_assoc]⟩
      · by_cases h1 : Encodable t ts v.1
        · obtain ⟨a, ha⟩ := ih.1 h1
          obtain ⟨e, he'⟩ := ih'.2 (fun h2 => he ⟨h1, h2⟩) (b ++ a)
          exact ⟨e, by simp only [ha, he']⟩
        · obtain ⟨e, he'⟩ := ih.2 h1 b
          exact ⟨e, by simp only [he']⟩
end

mutual
theorem targetsOk_of_ptrFree : ∀ (t : Ty) (ts : Tags) (v : t.Val), PtrFree t → TargetsOk t ts v
  | .num _, _, _, _ | .bool, _, _, _ | .str, _, _, _ | .byteArr _, _, _, _ | .byteSlice, _, _, _
  | .custom _, _, _, _ | .unsupported _ _, _, _, _ => by simp [TargetsOk]
  | .arr n t, ts, v, h => by
    simp only [PtrFree] at h
    simp only [TargetsOk]
    exact fun x _ => targetsOk_of_ptrFree t {} x h
  | .slice t, ts, v, h => by
    simp only [PtrFree] at h
    simp only [TargetsOk]
    exact fun x _ => targetsOk_of_ptrFree t {} x h
  | .ptr t, ts, v, h => by simp [PtrFree] at h
  | .struct fs, ts, v, h => by
    simp only [PtrFree] at h
    simp only [TargetsOk]
    exact targetsOkFields_of_ptrFree fs v h
theorem targetsOkFields_of_ptrFree : ∀ (fs : Fields) (v : fs.Val), PtrFreeFields fs → TargetsOkFields fs v
  | .nil, _, _ => by simp [TargetsOkFields]
  | .cons tag t fs, v, h => by
    simp only [PtrFreeFields] at h
    simp only [TargetsOkFields]
    exact ⟨targetsOk_of_ptrFree t _ v.1 h.1, targetsOkFields_of_ptrFree fs v.2 h.2⟩
end

/-! ## Sizes -/

theorem foldlM_size {α} {s : α → Out Nat} {g : Bytes → α → Out Bytes} (l : List α)
    (h : ∀ x ∈ l, ∀ n b, s x = .ok n → ∃ bs, bs.length = n ∧ g b x = .ok (b ++ bs)) :
    ∀ (acc n : Nat) (b : Bytes), l.foldlM (fun total x => do return total + (← s x)) acc = .ok n →
      ∃ bs, acc + bs.length = n ∧ l.foldlM g b = .ok (b ++ bs) := by
  induction l with
  | nil =>
    intro acc n b e
    simp only [List.foldlM_nil, Out.pure_eq, Out.ok.injEq] at e
    exact ⟨[], by simp [e], by simp [List.foldlM]⟩
  | cons x xs ih =>
    intro acc n b e
    rw [List.foldlM_cons] at e
    simp only [Out.bind_eq_ok, Out.pure_eq, Out.ok.injEq] at e
    obtain ⟨_, ⟨m, hm, rfl⟩, e⟩ := e
    obtain ⟨a, ha, hga⟩ := h x (by simp) m b hm
    obtain ⟨c, hc, hgc⟩ := ih (fun y hy => h y (by simp [hy])) _ n (b ++ a) e
    exact ⟨a ++ c, by rw [List.length_append]; omega, by rw [List.foldlM_cons, hga, Out.bind_ok, hgc, List.append_assoc]⟩

theorem putNum_length (k : NumKind) (v : k.Val) : (putNum k v).length = k.size := by
  rw [putNum_eq, num_length]

/-- Numbers always have an encoding of their size. -/
theorem foldlM_num (k : NumKind) (l : List k.Val) : ∀ b : Bytes,
    ∃ bs, bs.length = l.length * k.size ∧
      l.foldlM (fun b x => marshal (.num k) x b {}) b = .ok (b ++ bs) := by
  induction l with
  | nil => exact fun b => ⟨[], by simp, by simp [List.foldlM]⟩
  | cons x xs ih =>
    intro b
    obtain ⟨c, hc, hgc⟩ := ih (b ++ putNum k x)
    refine ⟨putNum k x ++ c, ?_, ?_⟩
    · rw [List.length_append, hc, putNum_length, List.length_cons, Nat.add_mul]; omega
    · rw [List.foldlM_cons]
      simp only [marshal] at hgc ⊢
      rw [Out.bind_ok, hgc, List.append_assoc]

mutual
/-- If Size succeeds then Marshal succeeds with that many bytes. -/
theorem valueSize_sound : ∀ (t : Ty) (ts : Tags) (v : t.Val) (n : Nat) (b : Bytes), SizeOk t →
    valueSize t v ts = .ok n → ∃ bs, bs.length = n ∧ marshal t v b ts = .ok (b ++ bs)
  | .num k, ts, v, n, b, _, h => by
    simp only [valueSize, Out.ok.injEq] at h
    exact ⟨putNum k v, by rw [putNum_length, h], by simp only [marshal]⟩
  | .bool, ts, v, n, b, _, h => by simp [valueSize] at h
  | .byteArr m, ts, v, n, b, _, h => by
    simp only [valueSize, Out.ok.injEq, Nat.mul_one] at h
    exact ⟨v.val, by rw [v.property, h], by simp only [marshal]⟩
  | .str, ts, v, n, b, _, h => by
    simp only [valueSize] at h
    simp only [marshal]
    cases hk : ts.lenTag with
    | none => simp [hk] at h
    | some k =>
      simp only [hk, Out.ok.injEq] at h
      exact ⟨putLen k v.length ++ v, by simp [putLen_length, h], by simp⟩
  | .byteSlice, ts, v, n, b, _, h => by
    simp only [valueSize] at h
    simp only [marshal]
    cases hk : ts.lenTag with
    | none => simp [hk] at h
    | some k =>
      simp only [hk, Out.ok.injEq, Nat.mul_one] at h
      exact ⟨putLen k v.length ++ v, by simp [putLen_length, h], by simp⟩
  | .arr m t, ts, v, n, b, hs, h => by
    simp only [SizeOk] at hs
    simp only [valueSize] at h
    simp only [marshal]
    cases hn : t.numSize with
    | some s =>
      cases t <;> simp [Ty.numSize] at hn
      subst hn
      simp only [Ty.numSize, Out.ok.injEq] at h
      obtain ⟨bs, h1, h2⟩ := foldlM_num _ v.val b
      exact ⟨bs, by rw [h1, v.property, h], h2⟩
    | none =>
      simp only [hn] at h
      obtain ⟨bs, h1, h2⟩ := foldlM_size v.val (fun x _ n b hx => valueSize_sound t {} x n b hs hx) 0 n b h
      exact ⟨bs, by omega, h2⟩
  | .slice t, ts, v, n, b, hs, h => by
    simp only [SizeOk] at hs
    simp only [valueSize] at h
    simp only [marshal]
    cases hk : ts.lenTag with
    | none => simp [hk] at h
    | some k =>
      simp only [hk] at h
      cases hn : t.numSize with
      | some s =>
        cases t <;> simp [Ty.numSize] at hn
        subst hn
        simp only [Ty.numSize, Out.ok.injEq] at h
        obtain ⟨bs, h1, h2⟩ := foldlM_num _ v (b ++ putLen k v.length)
        exact ⟨putLen k v.length ++ bs, by rw [List.length_append, putLen_length, h1, h], by
          simp only; rw [h2, List.append_assoc]⟩
      | none =>
        simp only [hn] at h
        obtain ⟨bs, h1, h2⟩ := foldlM_size v (fun x _ n b hx => valueSize_sound t {} x n b hs hx) k.size n
          (b ++ putLen k v.length) h
        exact ⟨putLen k v.length ++ bs, by rw [List.length_append, putLen_length, h1], by
          simp only; rw [h2, List.append_assoc]⟩
  | .ptr t, ts, v, n, b, hs, h => by
    simp only [SizeOk] at hs
    simp only [valueSize] at h
    simp only [marshal, customEnc_none hs.2]
    cases v with
    | none =>
      by_cases ho : ts.optional
      · simp only [ho, if_true, Out.ok.injEq] at h ⊢
        exact ⟨[0], by simp [← h], rfl⟩
      · simp [ho] at h
    | some x =>
      simp only [Out.bind_eq_ok, Out.pure_eq, Out.ok.injEq] at h
      obtain ⟨m, hm, rfl⟩ := h
      by_cases ho : ts.optional
      · simp only [ho, if_true]
        obtain ⟨bs, h1, h2⟩ := valueSize_sound t ts x m (b ++ [1]) hs.1 hm
        exact ⟨1 :: bs, by simp [h1, Nat.add_comm], by simp [h2]⟩
      · simp only [ho, if_false, Bool.false_eq_true]
        obtain ⟨bs, h1, h2⟩ := valueSize_sound t ts x m b hs.1 hm
        exact ⟨bs, by omega, by simp [h2]⟩
  | .struct fs, ts, v, n, b, hs, h => by
    simp only [SizeOk] at hs
    simp only [valueSize] at h
    simp only [marshal]
    obtain ⟨bs, h1, h2⟩ := fieldsSize_sound fs v 0 n b hs h
    exact ⟨bs, by omega, h2⟩
  | .custom c, ts, v, n, b, hs, h => by
    simp only [SizeOk] at hs
    simp only [valueSize] at h
    simp only [marshal]
    exact hs v n b h
  | .unsupported α z, ts, v, n, b, _, h => by simp [valueSize] at h
theorem fieldsSize_sound : ∀ (fs : Fields) (v : fs.Val) (acc n : Nat) (b : Bytes), SizeOkFields fs →
    fieldsSize fs v acc = .ok n → ∃ bs, acc + bs.length = n ∧ marshalFields fs v b = .ok (b ++ bs)
  | .nil, v, acc, n, b, _, h => by
    simp only [fieldsSize, Out.ok.injEq] at h
    exact ⟨[], by simp [h], by simp [marshalFields]⟩
  | .cons tag t fs, v, acc, n, b, hs, h => by
    simp only [SizeOkFields] at hs
    simp only [fieldsSize] at h
    simp only [marshalFields]
    cases hts : fieldTags tag with
    | none => simp [hts] at h
    | some ts =>
      simp only [hts] at h
      cases hv : valueSize t v.1 ts with
      | err e => simp [hv] at h
      | panic => simp [hv] at h
      | ok m =>
        simp only [hv] at h
        obtain ⟨a, ha, ha'⟩ := valueSize_sound t ts v.1 m b hs.1 hv
        obtain ⟨c, hc, hc'⟩ := fieldsSize_sound fs v.2 (acc + m) n (b ++ a) hs.2 h
        exact ⟨a ++ c, by rw [List.length_append]; omega, by simp only [ha', hc', List.append_assoc]⟩
end

theorem foldlM_size_complete {α} {f : α → Option Bytes} {s : α → Out Nat} (l : List α)
    (h : ∀ x ∈ l, ∀ bs, f x = some bs → s x = .ok bs.length) :
    ∀ (acc : Nat) (bs : Bytes), all f l = some bs →
      l.foldlM (fun total x => do return total + (← s x)) acc = .ok (acc + bs.length) := by
  induction l with
  | nil => intro acc bs e; simp only [all, Option.some.injEq] at e; subst e; simp [List.foldlM]
  | cons x xs ih =>
    intro acc bs e
    obtain ⟨a, c, ha, hc, rfl⟩ := all_cons e
    rw [List.foldlM_cons, h x (by simp) a ha]
    show List.foldlM _ (acc + a.length) xs = _
    rw [ih (fun y hy => h y (by simp [hy])) _ c hc, List.length_append, Nat.add_assoc]

theorem all_num_length (k : NumKind) (l : List k.Val) : ∀ bs, all (fun x => enc (.num k) {} x) l = some bs →
    bs.length = l.length * k.size := by
  induction l with
  | nil => intro bs e; simp only [all, Option.some.injEq] at e; subst e; simp
  | cons x xs ih =>
    intro bs e
    obtain ⟨a, c, ha, hc, rfl⟩ := all_cons e
    simp only [enc, Option.some.injEq] at ha
    subst ha
    rw [List.length_append, num_length, ih c hc, List.length_cons, Nat.add_mul]; omega

mutual
/-- Size gives the length of the specified encoding. -/
theorem valueSize_complete : ∀ (t : Ty) (ts : Tags) (v : t.Val) (bs : Bytes), Plain t → enc t ts v = some bs →
    valueSize t v ts = .ok bs.length
  | .num k, ts, v, bs, _, h => by
    simp only [enc, Option.some.injEq] at h
    subst h; simp only [valueSize, num_length]
  | .bool, ts, v, bs, hp, h => by simp [Plain] at hp
  | .byteArr m, ts, v, bs, _, h => by
    simp only [enc, Option.some.injEq] at h
    subst h; simp [valueSize, v.property]
  | .str, ts, v, bs, _, h => by
    simp only [enc, Option.bind_eq_bind, Option.bind_eq_some_iff] at h
    obtain ⟨l, hl, h⟩ := h
    obtain ⟨k, hk, _, rfl⟩ := len_some hl
    cases h
    simp [valueSize, hk, putLen_length]
  | .byteSlice, ts, v, bs, _, h => by
    simp only [enc, Option.bind_eq_bind, Option.bind_eq_some_iff] at h
    obtain ⟨l, hl, h⟩ := h
    obtain ⟨k, hk, _, rfl⟩ := len_some hl
    cases h
    simp [valueSize, hk, putLen_length]
  | .arr m t, ts, v, bs, hp, h => by
    simp only [Plain] at hp
    simp only [enc] at h
    simp only [valueSize]
    cases hn : t.numSize with
    | some s =>
      cases t <;> simp [Ty.numSize] at hn
      subst hn
      simp only
      rw [all_num_length _ v.val bs h, v.property]
    | none =>
      simp only
      rw [foldlM_size_complete v.val (fun x _ bs hx => valueSize_complete t {} x bs hp hx) 0 bs h, Nat.zero_add]
  | .slice t, ts, v, bs, hp, h => by
    simp only [Plain] at hp
    simp only [enc, Option.bind_eq_bind, Option.bind_eq_some_iff] at h
    obtain ⟨l, hl, c, hc, h⟩ := h
    obtain ⟨k, hk, _, rfl⟩ := len_some hl
    cases h
    simp only [valueSize, hk, List.length_append, putLen_length]
    cases hn : t.numSize with
    | some s =>
      cases t <;> simp [Ty.numSize] at hn
      subst hn
      simp only
      rw [all_num_length _ v c hc]
    | none =>
      simp only
      rw [foldlM_size_complete v (fun x _ bs hx => valueSize_complete t {} x bs hp hx) k.size c hc]
  | .ptr t, ts, v, bs, hp, h => by
    simp only [Plain] at hp
    simp only [enc] at h
    simp only [valueSize]
    split at h
    · cases h
    · cases v with
      | none =>
        by_cases ho : ts.optional
        · simp only [ho, if_true, Option.some.injEq] at h ⊢; subst h; simp
        · simp [ho] at h
      | some x =>
        by_cases ho : ts.optional
        · simp only [ho, if_true, Option.bind_eq_bind, Option.bind_eq_some_iff] at h ⊢
          obtain ⟨c, hc, h⟩ := h
          cases h
          simp [valueSize_complete t ts x c hp hc, Nat.add_comm]
        · simp only [ho, if_false, Bool.false_eq_true] at h ⊢
          simp [valueSize_complete t ts x bs hp h]
  | .struct fs, ts, v, bs, hp, h => by
    simp only [Plain] at hp
    simp only [enc] at h
    simp only [valueSize]
    rw [fieldsSize_complete fs v 0 bs hp h, Nat.zero_add]
  | .custom c, ts, v, bs, hp, h => by simp [Plain] at hp
  | .unsupported α z, ts, v, bs, hp, h => by simp [enc] at h
theorem fieldsSize_complete : ∀ (fs : Fields) (v : fs.Val) (acc : Nat) (bs : Bytes), PlainFields fs →
    encFields fs v = some bs → fieldsSize fs v acc = .ok (acc + bs.length)
  | .nil, v, acc, bs, _, h => by
    simp only [encFields, Option.some.injEq] at h
    subst h; simp [fieldsSize]
  | .cons tag t fs, v, acc, bs, hp, h => by
    simp only [PlainFields] at hp
    simp only [encFields, Option.bind_eq_bind, Option.bind_eq_some_iff] at h
    obtain ⟨ts, hts, a, ha, c, hc, h⟩ := h
    cases h
    simp only [fieldsSize, hts, valueSize_complete t ts v.1 a hp.1 ha]
    rw [fieldsSize_complete fs v.2 _ c hp.2 hc, List.length_append, Nat.add_assoc]
end

/-! ## Tags -/

/-- The inverse of `splitComma` -/
def joinComma : List (List Char) → List Char
  | [] => []
  | [x] => x
  | x :: y :: r => x ++ ',' :: joinComma (y :: r)

theorem splitComma_ne_nil (s : List Char) : splitComma s ≠ [] := by
  cases s with
  | nil => simp [splitComma]
  | cons c cs =>
    simp only [splitComma]
    split
    · simp
    · split <;> simp

theorem joinComma_splitComma (s : List Char) : joinComma (splitComma s) = s := by
  induction s with
  | nil => rfl
  | cons c cs ih =>
    simp only [splitComma]
    split
    · rename_i h
      subst h
      cases hs : splitComma cs with
      | nil => exact absurd hs (splitComma_ne_nil cs)
      | cons x xs => rw [hs] at ih; simp [joinComma, ih]
    · cases hs : splitComma cs with
      | nil => exact absurd hs (splitComma_ne_nil cs)
      | cons x xs =>
        rw [hs] at ih
        simp only
        cases xs with
        | nil => simp only [joinComma] at ih ⊢; rw [ih]
        | cons y ys => simp only [joinComma, List.cons_append] at ih ⊢; rw [ih]

theorem splitComma_append (s : List Char) (h : ',' ∉ s) (r : List Char) : splitComma (s ++ ',' :: r) = s :: splitComma r := by
  induction s with
  | nil => simp [splitComma]
  | cons c cs ih =>
    simp only [List.mem_cons, not_or] at h
    simp only [List.cons_append, splitComma, ih h.2]
    rw [if_neg (Ne.symm h.1)]

theorem splitComma_none (s : List Char) (h : ',' ∉ s) : splitComma s = [s] := by
  induction s with
  | nil => rfl
  | cons c cs ih =>
    simp only [List.mem_cons, not_or] at h
    simp only [splitComma, ih h.2]
    rw [if_neg (Ne.symm h.1)]

theorem optionals_zero : optionals 0 = sOptional := rfl

theorem optionals_eq (n : Nat) : optionals n = joinComma (List.replicate (n + 1) sOptional) := by
  induction n with
  | zero => rw [optionals_zero]; rfl
  | succ n ih =>
    rw [optionals, ih, List.replicate_succ (n := n + 1), List.replicate_succ (n := n), joinComma]
    have : ['o', 'p', 't', 'i', 'o', 'n', 'a', 'l', ','] = sOptional ++ [','] := rfl
    rw [this, List.append_assoc]; rfl

theorem splitComma_optionals (n : Nat) : splitComma (optionals n) = List.replicate (n + 1) sOptional := by
  induction n with
  | zero => rw [optionals_zero]; decide
  | succ n ih =>
    have : ['o', 'p', 't', 'i', 'o', 'n', 'a', 'l', ','] = sOptional ++ [','] := rfl
    rw [optionals, this, List.append_assoc, List.singleton_append, splitComma_append _ (by decide), ih]
    rfl

theorem parseLoop_replicate (tag : List Char) : ∀ (n : Nat) (ts : Tags),
    parseLoop tag (List.replicate (n + 1) sOptional) ts = some { ts with optional := true } := by
  intro n
  induction n with
  | zero => intro ts; simp [parseLoop]
  | succ n ih =>
    intro ts
    rw [List.replicate_succ, parseLoop, if_pos rfl, ih]

theorem parseLoop_notLen {tag : List Char} (h : ¬ sLenTag <+: tag) : ∀ (els : List (List Char)) (ts ts' : Tags),
    parseLoop tag els ts = some ts' → els = List.replicate els.length sOptional := by
  intro els
  induction els with
  | nil => intros; rfl
  | cons el els ih =>
    intro ts ts' e
    rw [parseLoop] at e
    by_cases ho : el = sOptional
    · rw [if_pos ho] at e
      rw [List.length_cons, List.replicate_succ, ← ih _ _ e, ho]
    · rw [if_neg ho, if_neg h] at e; cases e

theorem lenTagText_eq (k : LenKind) : lenTagText k = sLenTag ++
    (match k with | .u8 => sUint8 | .u16 => sUint16 | .u32 => sUint32 | .u64 => sUint64) := by
  cases k <;> rfl

theorem parseTag_lenTag (k : LenKind) : parseTag (lenTagText k) = some { lenTag := some k } := by
  rw [lenTagText_eq]; cases k <;> decide

theorem parseTag_optionals (n : Nat) : parseTag (optionals n) = some { optional := true } := by
  rw [parseTag, splitComma_optionals, parseLoop_replicate]

theorem parseTag_iff (tag : List Char) (ts : Tags) : parseTag tag = some ts ↔
    (∃ n, tag = optionals n ∧ ts = { optional := true }) ∨ ∃ k, tag = lenTagText k ∧ ts = { lenTag := some k } := by
  constructor
  · intro h
    by_cases hl : sLenTag <+: tag
    · right
      obtain ⟨r, rfl⟩ := hl
      have key : ∃ k : LenKind, sLenTag ++ r = lenTagText k := by
        have hne := splitComma_ne_nil (sLenTag ++ r)
        unfold parseTag at h
        have hfst : ∀ x xs, splitComma (sLenTag ++ r) = x :: xs → x ≠ sOptional := by
          intro x xs hx he
          have := joinComma_splitComma (sLenTag ++ r)
          rw [hx, he] at this
          cases xs with
          | nil => simp [joinComma, sOptional, sLenTag] at this
          | cons y ys => simp [joinComma, sOptional, sLenTag] at this
        cases hs : splitComma (sLenTag ++ r) with
        | nil => exact absurd hs hne
        | cons x xs =>
          rw [hs, parseLoop, if_neg (hfst x xs hs), if_pos (List.prefix_append _ _)] at h
          have hd : (sLenTag ++ r).drop sLenTag.length = r := by simp
          simp only [hd] at h
          by_cases h8 : r = sUint8
          · exact ⟨.u8, by rw [h8, lenTagText_eq]⟩
          rw [if_neg h8] at h
          by_cases h16 : r = sUint16
          · exact ⟨.u16, by rw [h16, lenTagText_eq]⟩
          rw [if_neg h16] at h
          by_cases h32 : r = sUint32
          · exact ⟨.u32, by rw [h32, lenTagText_eq]⟩
          rw [if_neg h32] at h
          by_cases h64 : r = sUint64
          · exact ⟨.u64, by rw [h64, lenTagText_eq]⟩
          rw [if_neg h64] at h
          cases h
      obtain ⟨k, hk⟩ := key
      rw [hk, parseTag_lenTag] at h
      exact ⟨k, hk, (Option.some.inj h).symm⟩
    · left
      have hr := parseLoop_notLen hl _ _ _ h
      have hne := splitComma_ne_nil tag
      cases hn : (splitComma tag).length with
      | zero => exact absurd (List.eq_nil_of_length_eq_zero hn) hne
      | succ n =>
        rw [hn] at hr
        have ht : tag = optionals n := by rw [optionals_eq, ← hr, joinComma_splitComma]
        rw [ht, parseTag_optionals] at h
        exact ⟨n, ht, (Option.some.inj h).symm⟩
  · rintro (⟨n, rfl, rfl⟩ | ⟨k, rfl, rfl⟩)
    · exact parseTag_optionals n
    · exact parseTag_lenTag k

end Nimiq.Beserial
