import Verif.Tree.Ops
import Mathlib.Data.List.Perm.Subperm
/-!
# Which nodes are stored, and how many
-/
namespace Nimiq.Tree

variable {H : Bytes → Hash32}

/-- There is a leaf at or below every node other than an empty root. -/
theorem leaf_below {V : View} (L : Loc V) : ∀ (n : Nat) (k : Nibbles), 40 - k.length ≤ n → V k ≠ none → k ≠ [] →
    ∃ q v, k <+: q ∧ V q = some (.leaf q v) := by
  intro n
  induction n with
  | zero =>
    intro k hk hV _
    rcases L.node_cases hV with ⟨v, h, _⟩ | ⟨ch, hb, hlt⟩
    · exact ⟨k, v, List.prefix_refl _, h⟩
    · omega
  | succ n ih =>
    intro k hk hV hne
    rcases L.node_cases hV with ⟨v, h, _⟩ | ⟨ch, hb, hlt⟩
    · exact ⟨k, v, List.prefix_refl _, h⟩
    · obtain ⟨i, _, _, hi, _⟩ := L.two hb hne
      have hl := L.link hb hi
      obtain ⟨q, v, h1, h2⟩ := ih _ (by have := hl.lt; omega) (hl.target L) (by
        intro e; have := hl.lt; rw [e] at this; simp at this)
      exact ⟨q, v, hl.pre.trans h1, h2⟩

theorem leaf_below_child {V : View} (L : Loc V) {k : Nibbles} {ch i} (hb : Br V k ch) (hi : (ch i).exist = true) :
    ∃ q v, k ++ [i] <+: q ∧ V q = some (.leaf q v) := by
  have hl := L.link hb hi
  obtain ⟨⟨s, hs⟩, _⟩ := L.child hb hi
  obtain ⟨q, v, h1, h2⟩ := leaf_below L _ _ (Nat.le_refl _) (hl.target L) (by
    intro e; have := hl.lt; rw [e] at this; simp at this)
  exact ⟨q, v, (by rw [hs]; exact snoc_pre_cons.mpr rfl : k ++ [i] <+: k ++ (ch i).suffix).trans h1, h2⟩

/-- Where two nodes diverge there is a branch. -/
theorem branch_at_divergence {V : View} (L : Loc V) {p q q' : Nibbles} {i j : Nib} (hq : V q ≠ none) (hq' : V q' ≠ none)
    (h : p ++ [i] <+: q) (h' : p ++ [j] <+: q') (hij : i ≠ j) : ∃ ch, Br V p ch := by
  have hpq : p <+: q := (List.prefix_append _ _).trans h
  have hpq' : p <+: q' := (List.prefix_append _ _).trans h'
  have hl : p.length < q.length := by have := h.length_le; simp at this; omega
  have hl' : p.length < q'.length := by have := h'.length_le; simp at this; omega
  -- descend from the root
  have desc : ∀ (n : Nat) (k : Nibbles) (ch : Nib → Child), p.length - k.length ≤ n → Br V k ch → k <+: p → ∃ ch, Br V p ch := by
    intro n
    induction n with
    | zero =>
      intro k ch hn hb hk
      have : k = p := hk.eq_of_length (by have := hk.length_le; omega)
      subst this; exact ⟨ch, hb⟩
    | succ n ih =>
      intro k ch hn hb hk
      by_cases he : k = p
      · subst he; exact ⟨ch, hb⟩
      have hkl : k.length < p.length := by
        rcases Nat.lt_or_ge k.length p.length with h | h
        · exact h
        · exact absurd (hk.eq_of_length (Nat.le_antisymm hk.length_le h)) he
      obtain ⟨c, hlc, hcq⟩ := hb.route L hq (hk.trans hpq) (by omega)
      obtain ⟨c', hlc', hcq'⟩ := hb.route L hq' (hk.trans hpq') (by omega)
      obtain ⟨m, hm⟩ := pre_next hk hkl
      have a1 : k ++ [m] <+: c := List.prefix_of_prefix_length_le (hm.trans hpq) hcq (by have := hlc.lt; simp; omega)
      have a2 : k ++ [m] <+: c' := List.prefix_of_prefix_length_le (hm.trans hpq') hcq' (by have := hlc'.lt; simp; omega)
      have := hlc.same hlc' a1 a2
      subst this
      have hcp : c <+: p := by
        rcases pre_cases hcq hpq with e | ⟨a, _⟩ | ⟨a, b⟩
        · rw [e]; first | done | exact List.prefix_refl _
        · exact a
        · exfalso
          have b1 : p ++ [i] <+: c := List.prefix_of_prefix_length_le h hcq (by simp; omega)
          have b2 : p ++ [j] <+: c := List.prefix_of_prefix_length_le h' hcq' (by simp; omega)
          have := pre_len_eq b1 b2 (by simp)
          simp only [List.append_cancel_left_eq, List.cons.injEq, and_true] at this
          exact hij this
      rcases L.node_cases (hlc.target L) with ⟨v, _, h40, _⟩ | ⟨chc, hbc, _⟩
      · have := L.len_le hq; have := hcp.length_le; omega
      · exact ih c chc (by have := hlc.lt; have := hcp.length_le; omega) hbc hcp
  obtain ⟨ch, hb⟩ := L.root
  exact desc _ [] ch (Nat.le_refl _) hb List.nil_prefix

/-! ## Counting -/

/-- Sum over the sixteen nibbles. -/
def S (f : Nib → Nat) : Nat := ((List.finRange 16).map f).sum

theorem sum_map_le {l : List Nib} {f g : Nib → Nat} (h : ∀ i ∈ l, f i ≤ g i) : (l.map f).sum ≤ (l.map g).sum := by
  induction l with
  | nil => simp
  | cons x l ih =>
    have := h x (by simp); have := ih (fun i hi => h i (by simp [hi]))
    simp; omega

theorem sum_map_add {l : List Nib} {f g : Nib → Nat} : (l.map fun i => f i + g i).sum = (l.map f).sum + (l.map g).sum := by
  induction l with
  | nil => simp
  | cons x l ih => simp [ih]; omega

open Classical in
noncomputable def ind (P : Prop) : Nat := if P then 1 else 0

theorem ind_pos {P : Prop} (h : P) : ind P = 1 := by unfold ind; rw [if_pos h]
theorem ind_neg {P : Prop} (h : ¬ P) : ind P = 0 := by unfold ind; rw [if_neg h]

theorem sum_zero {l : List Nib} {f : Nib → Nat} (h : ∀ i ∈ l, f i = 0) : (l.map f).sum = 0 := by
  induction l with
  | nil => simp
  | cons x l ih =>
    have := h x (by simp); have := ih (fun i hi => h i (by simp [hi]))
    simp only [List.map_cons, List.sum_cons]; omega

theorem sum_indicator {l : List Nib} (hn : l.Nodup) (P : Nib → Prop) (h : ∀ i j, P i → P j → i = j) :
    (l.map fun i => ind (P i)).sum ≤ 1 := by
  induction l with
  | nil => simp
  | cons x l ih =>
    obtain ⟨h1, h2⟩ := List.nodup_cons.mp hn
    simp only [List.map_cons, List.sum_cons]
    by_cases hx : P x
    · have := sum_zero (l := l) (f := fun i => ind (P i)) (fun i hi => ind_neg (fun hp => by
        have := h i x hp hx; subst this; exact h1 hi))
      rw [ind_pos hx]; omega
    · have := ih h2
      rw [ind_neg hx]; omega

open Classical in
/-- Number of keys of the list below `p`. -/
noncomputable def below (keys : List Addr) (p : Nibbles) : Nat := (keys.filter fun a => p <+: keyNibs a).length

theorem below_sum (keys : List Addr) (p : Nibbles) : S (fun i => below keys (p ++ [i])) ≤ below keys p := by
  induction keys with
  | nil => simp [below, S]
  | cons a keys ih =>
    have e : ∀ p, below (a :: keys) p = ind (p <+: keyNibs a) + below keys p := by
      intro p; unfold below
      by_cases h : p <+: keyNibs a
      · rw [ind_pos h]; simp [h]; omega
      · rw [ind_neg h]; simp [h]
    have e' : (fun i : Nib => below (a :: keys) (p ++ [i])) =
        (fun i => ind (p ++ [i] <+: keyNibs a) + below keys (p ++ [i])) := by
      funext i; exact e _
    rw [e p, e']
    unfold S at *
    rw [sum_map_add]
    have hb : (List.map (fun i => ind (p ++ [i] <+: keyNibs a)) (List.finRange 16)).sum ≤ ind (p <+: keyNibs a) := by
      by_cases h : p <+: keyNibs a
      · rw [ind_pos h]
        apply sum_indicator finRange_nodup
        intro i j hi hj
        have := pre_len_eq hi hj (by simp)
        simpa using this
      · rw [ind_neg h]
        apply Nat.le_of_eq
        apply sum_zero
        intro i _
        exact ind_neg (fun h' => h ((List.prefix_append _ _).trans h'))
    exact Nat.add_le_add hb ih

open Classical in
/-- The paths of all nodes at or below `p`. -/
noncomputable def enum (V : View) : Nat → Nibbles → List Nibbles
  | 0, p => if V p = none then [] else [p]
  | d + 1, p => (if V p = none then [] else [p]) ++ (List.finRange 16).flatMap fun i => enum V d (p ++ [i])

theorem mem_enum {V : View} : ∀ (d : Nat) (p k : Nibbles), p <+: k → k.length ≤ p.length + d → V k ≠ none → k ∈ enum V d p := by
  intro d
  induction d with
  | zero =>
    intro p k h1 h2 h3
    have : p = k := h1.eq_of_length (by have := h1.length_le; omega)
    subst this; simp [enum, h3]
  | succ d ih =>
    intro p k h1 h2 h3
    by_cases hpk : p = k
    · subst hpk; simp [enum, h3]
    · have hl : p.length < k.length := by
        rcases Nat.lt_or_ge p.length k.length with h | h
        · exact h
        · exact absurd (h1.eq_of_length (Nat.le_antisymm h1.length_le h)) hpk
      obtain ⟨i, hi⟩ := pre_next h1 hl
      have := ih (p ++ [i]) k hi (by simp; omega) h3
      simp only [enum, List.mem_append, List.mem_flatMap]
      exact .inr ⟨i, List.mem_finRange i, this⟩

theorem enum_length (V : View) (d p) : (enum V (d+1) p).length =
    (if V p = none then 0 else 1) + S (fun i => (enum V d (p ++ [i])).length) := by
  simp only [enum, List.length_append, S, List.length_flatMap]
  split <;> rfl

/-- Facts about sums of the counts of the sixteen subtrees. -/
theorem S_bound {c l : Nib → Nat} (h : ∀ i, c i = 0 ∨ c i + 1 ≤ 2 * l i) :
    S c = 0 ∨ S c + 1 ≤ 2 * S l := by
  unfold S
  generalize List.finRange 16 = li
  induction li with
  | nil => simp
  | cons x li ih =>
    simp only [List.map_cons, List.sum_cons]
    rcases h x with h1 | h1 <;> rcases ih with h2 | h2 <;> omega

theorem S_bound2 {c l : Nib → Nat} (h : ∀ i, c i = 0 ∨ c i + 1 ≤ 2 * l i) {a b : Nib} (hab : a ≠ b) (ha : c a ≠ 0)
    (hb : c b ≠ 0) : S c + 2 ≤ 2 * S l := by
  have gen : ∀ li : List Nib, ((li.map c).sum ≤ 2 * (li.map l).sum) ∧
      (∀ x ∈ li, c x ≠ 0 → (li.map c).sum + 1 ≤ 2 * (li.map l).sum) ∧
      (∀ x ∈ li, ∀ y ∈ li, x ≠ y → c x ≠ 0 → c y ≠ 0 → (li.map c).sum + 2 ≤ 2 * (li.map l).sum) := by
    intro li
    induction li with
    | nil => simp
    | cons z li ih =>
      obtain ⟨i1, i2, i3⟩ := ih
      simp only [List.map_cons, List.sum_cons]
      have hz := h z
      refine ⟨by omega, ?_, ?_⟩
      · intro x hx hx0
        rcases List.mem_cons.mp hx with rfl | hx
        · omega
        · have := i2 x hx hx0; omega
      · intro x hx y hy hxy hx0 hy0
        rcases List.mem_cons.mp hx with hxz | hx' <;> rcases List.mem_cons.mp hy with hyz | hy'
        · exact absurd (hxz.trans hyz.symm) hxy
        · have := i2 y hy' hy0; subst hxz; omega
        · have := i2 x hx' hx0; subst hyz; omega
        · have := i3 x hx' y hy' hxy hx0 hy0; omega
  exact (gen _).2.2 a (List.mem_finRange a) b (List.mem_finRange b) hab ha hb

theorem enum_bound {V : View} (L : Loc V) {keys : List Addr}
    (hk : ∀ a, V (keyNibs a) ≠ none → a ∈ keys) : ∀ (d : Nat) (p : Nibbles), p.length + d = 40 → p ≠ [] →
    (enum V d p).length = 0 ∨ (enum V d p).length + 1 ≤ 2 * below keys p := by
  intro d
  induction d with
  | zero =>
    intro p hp _
    by_cases h : V p = none
    · left; simp [enum, h]
    · right
      obtain ⟨a, rfl⟩ := keyNibs_surj (by omega : p.length = 40)
      have : 1 ≤ below keys (keyNibs a) := by
        unfold below
        apply List.length_pos_iff.mpr
        apply List.ne_nil_of_mem (a := a)
        simp [hk a h]
      simp only [enum, h, if_false, List.length_singleton]; omega
  | succ d ih =>
    intro p hp hne
    have ih' : ∀ i, (enum V d (p ++ [i])).length = 0 ∨ (enum V d (p ++ [i])).length + 1 ≤ 2 * below keys (p ++ [i]) :=
      fun i => ih (p ++ [i]) (by simp; omega) (by simp)
    have hs := below_sum keys p
    rw [enum_length]
    by_cases h : V p = none
    · rw [if_pos h]
      rcases S_bound ih' with h1 | h1
      · left; omega
      · right; omega
    · rw [if_neg h]
      right
      rcases L.node_cases h with ⟨v, _, h40, _⟩ | ⟨ch, hb, _⟩
      · omega
      obtain ⟨a, b, hab, ha, hb'⟩ := L.two hb hne
      have nz : ∀ i, (ch i).exist = true → (enum V d (p ++ [i])).length ≠ 0 := by
        intro i hi h0
        obtain ⟨q, v, h1, h2⟩ := leaf_below_child L hb hi
        have hq40 := (L.leaf h2).2.1
        have := mem_enum (V := V) d (p ++ [i]) q h1 (by simp; omega) (by rw [h2]; simp)
        rw [List.length_eq_zero_iff.mp h0] at this
        simp at this
      have := S_bound2 ih' hab (nz a ha) (nz b hb')
      omega

theorem node_count {V : View} (L : Loc V) {keys : List Addr} (hk : ∀ a, V (keyNibs a) ≠ none → a ∈ keys)
    {nodes : List Nibbles} (hn : nodes.Nodup) (hv : ∀ k ∈ nodes, V k ≠ none) : nodes.length ≤ 2 * keys.length + 1 := by
  have hsub : nodes ⊆ enum V 40 [] := fun k hk' => mem_enum 40 [] k List.nil_prefix (by have := L.len_le (hv k hk'); simpa using this) (hv k hk')
  have h1 := (List.subperm_of_subset hn hsub).length_le
  rw [enum_length] at h1
  have ih' : ∀ i, (enum V 39 ([] ++ [i])).length = 0 ∨ (enum V 39 ([] ++ [i])).length + 1 ≤ 2 * below keys ([] ++ [i]) :=
    fun i => enum_bound L hk 39 ([] ++ [i]) (by simp) (by simp)
  have hs := below_sum keys []
  have hb : below keys [] ≤ keys.length := by unfold below; exact List.length_filter_le _ _
  have hr : (if V [] = none then 0 else 1) ≤ 1 := by split <;> omega
  rcases S_bound ih' with h2 | h2 <;> omega

end Nimiq.Tree
