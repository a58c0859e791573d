import Verif.Tree.Canon
/-!
# The specified root hash determines the mapping, up to collisions of the hash function
-/
namespace Nimiq.Tree

variable {H : Bytes → Hash32}

/-- Two different strings from the two lists with the same hash. -/
def CollisionIn (H : Bytes → Hash32) (xs ys : List Bytes) : Prop := ∃ x ∈ xs, ∃ y ∈ ys, x ≠ y ∧ H x = H y

theorem mem_kids {sub : Nib → Option (Nibbles × Hash32)} {i : Nib} {s h} :
    (i :: s, h) ∈ Spec.kids sub ↔ sub i = some (s, h) := by
  unfold Spec.kids
  rw [List.mem_filterMap]
  constructor
  · rintro ⟨j, _, hj⟩
    cases hs : sub j with
    | none => simp [hs] at hj
    | some r =>
      simp only [hs, Option.map_some, Option.some.injEq, Prod.mk.injEq, List.cons.injEq] at hj
      obtain ⟨⟨rfl, rfl⟩, rfl⟩ := hj
      exact hs
  · intro h
    exact ⟨i, List.mem_finRange i, by simp [h]⟩

theorem kids_head {sub : Nib → Option (Nibbles × Hash32)} {k} (h : k ∈ Spec.kids sub) :
    ∃ i s, k.1 = i :: s ∧ sub i = some (s, k.2) := by
  unfold Spec.kids at h
  obtain ⟨j, _, hj⟩ := List.mem_filterMap.mp h
  cases hs : sub j with
  | none => simp [hs] at hj
  | some r =>
    simp only [hs, Option.map_some, Option.some.injEq] at hj
    subst hj; exact ⟨j, r.1, rfl, hs⟩

theorem kids_inj {sub sub' : Nib → Option (Nibbles × Hash32)} (h : Spec.kids sub = Spec.kids sub') (i : Nib) :
    sub i = sub' i := by
  apply Option.ext
  intro r
  have := mem_kids (sub := sub) (i := i) (s := r.1) (h := r.2)
  rw [h, mem_kids] at this
  exact this.symm

theorem kids_length {sub : Nib → Option (Nibbles × Hash32)} : (Spec.kids sub).length ≤ 16 := by
  unfold Spec.kids
  exact Nat.le_trans (List.length_filterMap_le _ _) (by simp)

theorem digit_inj : ∀ a b : Fin 16, Spec.digit a = Spec.digit b → a = b := by decide +kernel

theorem map_digit_inj {a b : Nibbles} (h : a.map Spec.digit = b.map Spec.digit) : a = b :=
  (List.map_inj_right digit_inj).mp h

theorem ofNat_inj {a b : Nat} (ha : a < 256) (hb : b < 256) (h : UInt8.ofNat a = UInt8.ofNat b) : a = b := by
  have := congrArg UInt8.toNat h
  simp only [UInt8.toNat_ofNat'] at this
  omega

theorem entries_inj : ∀ (ks ks' : List (Nibbles × Hash32)), ks.length = ks'.length →
    (∀ k ∈ ks, k.1.length < 256) → (∀ k ∈ ks', k.1.length < 256) →
    (ks.flatMap fun k => UInt8.ofNat k.1.length :: (k.1.map Spec.digit ++ k.2.val)) =
      (ks'.flatMap fun k => UInt8.ofNat k.1.length :: (k.1.map Spec.digit ++ k.2.val)) → ks = ks' := by
  intro ks
  induction ks with
  | nil => intro ks' h _ _ _; exact (List.length_eq_zero_iff.mp h.symm).symm
  | cons k ks ih =>
    intro ks' hl h1 h2 he
    cases ks' with
    | nil => simp at hl
    | cons k' ks' =>
      simp only [List.flatMap_cons, List.cons_append, List.cons.injEq, List.append_assoc] at he
      obtain ⟨e1, e2⟩ := he
      have hlen : k.1.length = k'.1.length := ofNat_inj (h1 k (by simp)) (h2 k' (by simp)) e1
      obtain ⟨e3, e4⟩ := List.append_inj e2 (by simpa using hlen)
      obtain ⟨e5, e6⟩ := List.append_inj e4 (by rw [k.2.property, k'.2.property])
      have ek : k = k' := Prod.ext (map_digit_inj e3) (Subtype.ext e5)
      rw [ek, ih ks' (by simpa using hl) (fun x hx => h1 x (by simp [hx])) (fun x hx => h2 x (by simp [hx])) e6]

theorem branchEnc_inj {p : Nibbles} {ks ks' : List (Nibbles × Hash32)} (hk : ks.length ≤ 16) (hk' : ks'.length ≤ 16)
    (h1 : ∀ k ∈ ks, k.1.length < 256) (h2 : ∀ k ∈ ks', k.1.length < 256)
    (h : Spec.branchEnc p ks = Spec.branchEnc p ks') : ks = ks' := by
  unfold Spec.branchEnc at h
  simp only [List.cons.injEq, true_and, List.append_cancel_left_eq] at h
  exact entries_inj _ _ (ofNat_inj (by omega) (by omega) h.1) h1 h2 h.2

theorem top_len {L : Nibbles → Bytes} : ∀ (d : Nat) (p : Nibbles) {s h}, Spec.top H L d p = some (s, h) → s.length ≤ d := by
  intro d
  induction d with
  | zero =>
    intro p s h e
    simp only [Spec.top] at e
    split at e
    · simp at e
    · simp only [Option.some.injEq, Prod.mk.injEq] at e; rw [← e.1]; simp
  | succ d ih =>
    intro p s h e
    simp only [Spec.top] at e
    split at e
    · simp at e
    · rename_i k hk
      have hm : k ∈ Spec.kids (fun i => Spec.top H L d (p ++ [i])) := by rw [hk]; simp
      obtain ⟨i, t, h1, h2⟩ := kids_head hm
      simp only [Option.some.injEq] at e
      subst e
      have := ih _ h2
      simp only at h1; rw [h1]; simp; omega
    · simp only [Option.some.injEq, Prod.mk.injEq] at e; rw [← e.1]; simp

theorem kids_len {L : Nibbles → Bytes} {d : Nat} (hd : d < 255) {p : Nibbles} :
    ∀ k ∈ Spec.kids (fun i => Spec.top H L d (p ++ [i])), k.1.length < 256 := by
  intro k hk
  obtain ⟨i, t, h1, h2⟩ := kids_head hk
  have := top_len d _ h2
  rw [h1]; simp; omega

/-- If the children lists are equal then everything below is, or there is a collision below. -/
theorem below_binding {L L' : Nibbles → Bytes} {d : Nat} {p : Nibbles}
    (ih : ∀ p, Spec.top H L d p = Spec.top H L' d p → (∀ q, p <+: q → q.length = p.length + d → L q = L' q) ∨
      CollisionIn H (Spec.topStrings H L d p) (Spec.topStrings H L' d p))
    (h : Spec.kids (fun i => Spec.top H L d (p ++ [i])) = Spec.kids (fun i => Spec.top H L' d (p ++ [i]))) :
    (∀ q, p <+: q → q.length = p.length + (d + 1) → L q = L' q) ∨
      CollisionIn H ((List.finRange 16).flatMap fun i => Spec.topStrings H L d (p ++ [i]))
        ((List.finRange 16).flatMap fun i => Spec.topStrings H L' d (p ++ [i])) := by
  by_cases hc : ∃ i, CollisionIn H (Spec.topStrings H L d (p ++ [i])) (Spec.topStrings H L' d (p ++ [i]))
  · right
    obtain ⟨i, x, hx, y, hy, hxy⟩ := hc
    exact ⟨x, List.mem_flatMap.mpr ⟨i, List.mem_finRange i, hx⟩, y, List.mem_flatMap.mpr ⟨i, List.mem_finRange i, hy⟩, hxy⟩
  · left
    intro q hpq hq
    obtain ⟨i, hi⟩ := pre_next hpq (by omega)
    have := (ih (p ++ [i]) (kids_inj h i)).resolve_right (fun h => hc ⟨i, h⟩)
    exact this q hi (by simp; omega)

theorem top_binding {L L' : Nibbles → Bytes} : ∀ (d : Nat), d < 255 → ∀ (p : Nibbles), Spec.top H L d p = Spec.top H L' d p →
    (∀ q, p <+: q → q.length = p.length + d → L q = L' q) ∨
      CollisionIn H (Spec.topStrings H L d p) (Spec.topStrings H L' d p) := by
  intro d
  induction d with
  | zero =>
    intro _ p h
    have hq : ∀ q : Nibbles, p <+: q → q.length = p.length + 0 → q = p :=
      fun q h1 h2 => (h1.eq_of_length (by omega)).symm
    simp only [Spec.top, Spec.topStrings] at h ⊢
    by_cases h1 : L p = [] <;> by_cases h2 : L' p = []
    · left; intro q a b; rw [hq q a b, h1, h2]
    · simp [h1, h2] at h
    · simp [h1, h2] at h
    · simp only [h1, h2, if_false] at h ⊢
      simp only [Option.some.injEq, Prod.mk.injEq, true_and] at h
      by_cases he : Spec.leafEnc p (L p) = Spec.leafEnc p (L' p)
      · left; intro q a b
        rw [hq q a b]
        simpa [Spec.leafEnc] using he
      · right
        exact ⟨_, by simp, _, by simp, he, h⟩
  | succ d ih =>
    intro hd p h
    have ih := ih (by omega)
    have len := kids_len (H := H) (L := L) (d := d) (by omega) (p := p)
    have len' := kids_len (H := H) (L := L') (d := d) (by omega) (p := p)
    have c16 := kids_length (sub := fun i => Spec.top H L d (p ++ [i]))
    have c16' := kids_length (sub := fun i => Spec.top H L' d (p ++ [i]))
    have bel := below_binding (p := p) ih
    have hne : ∀ k ∈ Spec.kids (fun i => Spec.top H L d (p ++ [i])), k.1 ≠ [] := by
      intro k hk; obtain ⟨i, s, h1, _⟩ := kids_head hk; rw [h1]; simp
    have hne' : ∀ k ∈ Spec.kids (fun i => Spec.top H L' d (p ++ [i])), k.1 ≠ [] := by
      intro k hk; obtain ⟨i, s, h1, _⟩ := kids_head hk; rw [h1]; simp
    simp only [Spec.top, Spec.topStrings] at h ⊢
    generalize Spec.kids (fun i => Spec.top H L d (p ++ [i])) = K at *
    generalize Spec.kids (fun i => Spec.top H L' d (p ++ [i])) = K' at *
    match K, K' with
    | [], [] => exact bel rfl
    | [], [k'] => simp at h
    | [], k' :: k'' :: ks' => simp at h
    | [k], [] => simp at h
    | [k], [k'] => simp only [Option.some.injEq] at h; subst h; exact bel rfl
    | [k], k' :: k'' :: ks' =>
      simp only [Option.some.injEq] at h
      exact absurd (by rw [h]) (hne k (by simp))
    | k :: k2 :: ks, [] => simp at h
    | k :: k2 :: ks, [k'] =>
      simp only [Option.some.injEq] at h
      exact absurd (by rw [← h]) (hne' k' (by simp))
    | k :: k2 :: ks, k' :: k2' :: ks' =>
      simp only [Option.some.injEq, Prod.mk.injEq, true_and] at h
      by_cases he : Spec.branchEnc p (k :: k2 :: ks) = Spec.branchEnc p (k' :: k2' :: ks')
      · have heq := branchEnc_inj c16 c16' len len' he
        rw [heq] at bel ⊢
        rcases bel rfl with h1 | ⟨x, hx, y, hy, hxy⟩
        · exact .inl h1
        · exact .inr ⟨x, by simp [hx], y, by simp [hy], hxy⟩
      · exact .inr ⟨_, by simp, _, by simp, he, h⟩

/-- Equal root hashes: equal mappings or an explicit collision. -/
theorem root_binding {M M' : Spec.Mapping} (h : Spec.rootHash H M = Spec.rootHash H M') :
    M = M' ∨ CollisionIn H (Spec.rootStrings H M) (Spec.rootStrings H M') := by
  unfold Spec.rootHash at h
  by_cases he : Spec.branchEnc [] (Spec.kids fun i => Spec.top H (Spec.leafAt M) 39 [i]) =
      Spec.branchEnc [] (Spec.kids fun i => Spec.top H (Spec.leafAt M') 39 [i])
  · have heq := branchEnc_inj kids_length kids_length (kids_len (p := []) (by omega)) (kids_len (p := []) (by omega)) he
    have bel := below_binding (p := []) (d := 39) (fun p => top_binding (H := H) (L := Spec.leafAt M) (L' := Spec.leafAt M') 39 (by omega) p) heq
    simp only [List.nil_append] at bel
    rcases bel with h1 | ⟨x, hx, y, hy, hxy⟩
    · left
      funext a
      have := h1 (keyNibs a) List.nil_prefix (by rw [keyNibs_length]; rfl)
      rwa [leafAt_nibs, leafAt_nibs] at this
    · right
      exact ⟨x, List.mem_cons_of_mem _ hx, y, List.mem_cons_of_mem _ hy, hxy⟩
  · right
    exact ⟨_, List.mem_cons_self, _, List.mem_cons_self, he, h⟩

end Nimiq.Tree
