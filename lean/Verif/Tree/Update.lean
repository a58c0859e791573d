import Verif.Tree.Loc
import Verif.Tree.NibblesProps
/-!
# `update` on views keeps the local invariant
-/
namespace Nimiq.Tree

open Classical in
/-- All cached hashes on the way from the root to `x` set to zero. -/
noncomputable def zeroed (x : Nibbles) (V : View) : View := fun k =>
  match V k with
  | some (.branch p ch) => some (.branch p fun i => if k ++ [i] <+: x then { ch i with hash := zeroHash } else ch i)
  | o => o

theorem zeroed_shape (x V) : Shape V (zeroed x V) := by
  intro k
  unfold zeroed
  cases h : V k with
  | none => trivial
  | some o =>
    cases o with
    | leaf => simp [sameShape]
    | branch p ch =>
      simp only [sameShape, true_and]
      intro i
      split <;> simp

/-- The stack `ks` is the path from the parent of `c` up to the root. -/
def Chain (V : View) : Nibbles → List Nibbles → Prop
  | c, [] => c = []
  | c, k :: ks => Link V k c ∧ Chain V k ks

theorem Chain.shape {V V' c ks} (h : Shape V V') (hc : Chain V c ks) : Chain V' c ks := by
  induction ks generalizing c with
  | nil => exact hc
  | cons k ks ih => exact ⟨hc.1.shape h, ih hc.2⟩

theorem Chain.mem {V c ks k} (hc : Chain V c ks) (hk : k ∈ ks) :
    k <+: c ∧ k.length < c.length ∧ ∃ ch, Br V k ch := by
  induction ks generalizing c with
  | nil => simp at hk
  | cons k' ks ih =>
    obtain ⟨h1, h2⟩ := hc
    rcases List.mem_cons.mp hk with rfl | hk
    · obtain ⟨ch, _, _, hb, _⟩ := id h1
      exact ⟨h1.pre, h1.lt, ch, hb⟩
    · obtain ⟨a, b, c⟩ := ih h2 hk
      exact ⟨a.trans h1.pre, by have := h1.lt; omega, c⟩

theorem Chain.not_mem {V c ks} (hc : Chain V c ks) : c ∉ ks := fun h => Nat.lt_irrefl _ (hc.mem h).2.1

/-- The chain depends only on the branches above `c`. -/
theorem Chain.congr {V V' c ks} (hc : Chain V c ks) (h : ∀ k, k.length < c.length → k <+: c → V' k = V k) :
    Chain V' c ks := by
  induction ks generalizing c with
  | nil => exact hc
  | cons k ks ih =>
    obtain ⟨h1, h2⟩ := hc
    have hl := h1.lt
    have hp := h1.pre
    refine ⟨?_, ih h2 (fun k' hk' hp' => h k' (by omega) (hp'.trans hp))⟩
    obtain ⟨ch, i, s, hb, r⟩ := h1
    exact ⟨ch, i, s, by unfold Br; rw [h k hl hp]; exact hb, r⟩

theorem setChild_self (ch i c) : setChild ch i c i = c := by simp [setChild]
theorem setChild_ne (ch c) {i j : Nib} (h : j ≠ i) : setChild ch i c j = ch j := by simp [setChild, h]

theorem snoc_pre_cons {k : Nibbles} {i j : Nib} {s : Nibbles} : k ++ [j] <+: k ++ i :: s ↔ j = i := by
  constructor
  · rintro ⟨t, ht⟩
    simp only [List.append_assoc, List.append_cancel_left_eq, List.singleton_append, List.cons.injEq] at ht
    exact ht.1
  · rintro rfl; exact ⟨s, by simp⟩

theorem vset_shape {V : View} {k p o} (h : V k = some p) (hs : sameShape (some p) (some o)) : Shape V (vset V k o) := by
  intro q
  by_cases hq : q = k
  · subst hq; rw [vset_self, h]; exact hs
  · rw [vset_ne _ _ _ hq]; exact sameShape.refl _

theorem inv_zeroed {V : View} {c : Nibbles} {ks : List Nibbles} (L : Loc V) (hc : Chain V c ks) :
    invV c ks V = some (zeroed c V) := by
  induction ks generalizing c V with
  | nil =>
    rw [show c = [] from hc]
    simp only [invV, Option.some.injEq]
    funext k
    unfold zeroed
    split
    · rename_i h; rw [h]; simp
    · rfl
  | cons k ks ih =>
    obtain ⟨hl, hch⟩ := hc
    obtain ⟨ch, i, s, hb, he, hs, hcc⟩ := id hl
    have hlen := hl.lt
    have hd : c.drop k.length = i :: s := by rw [hcc]; simp
    have hb' : V k = some (.branch k ch) := hb
    simp only [invV, hb', true_and, Nat.le_of_lt hlen, if_true, hd]
    have hsh : Shape V (vset V k (.branch k (setChild ch i ⟨i :: s, zeroHash, true⟩))) := by
      refine vset_shape hb' ⟨rfl, fun j => ?_⟩
      by_cases h : j = i
      · subst h; simp [setChild_self, he, hs]
      · simp [setChild_ne _ _ h]
    rw [ih (L.shape hsh) (hch.shape hsh)]
    congr 1
    funext j
    by_cases hj : j = k
    · subst hj
      simp only [zeroed, vset_self, hb', Option.some.injEq, NodeObj.branch.injEq, true_and]
      funext m
      have : ¬ j ++ [m] <+: j := fun h => by have := h.length_le; simp at this; omega
      rw [if_neg this]
      by_cases hm : m = i
      · subst hm
        rw [setChild_self, if_pos (by rw [hcc]; exact snoc_pre_cons.mpr rfl), ← hs, ← he]
      · rw [setChild_ne _ _ hm, if_neg (by rw [hcc]; exact fun h => hm (snoc_pre_cons.mp h))]
    · simp only [zeroed, vset_ne _ _ _ hj]
      cases hV : V j with
      | none => rfl
      | some o =>
        cases o with
        | leaf => rfl
        | branch p chj =>
          simp only [Option.some.injEq, NodeObj.branch.injEq, true_and]
          funext m
          have : j ++ [m] <+: k ↔ j ++ [m] <+: c := by
            constructor
            · exact fun h => h.trans hl.pre
            · intro h
              have hjc : j <+: c := (List.prefix_append j [m]).trans h
              rcases pre_cases hjc hl.pre with e | ⟨e1, e2⟩ | ⟨e1, e2⟩
              · exact absurd e hj
              · exact List.prefix_of_prefix_length_le h hl.pre (by simp; omega)
              · have := hl.noInside L (q := j) (by rw [hV]; simp) e1 e2 hjc
                subst this
                have := h.length_le; simp at this; omega
          simp only [this]

/-! ## existing children -/

theorem existing_eq (ch : Nib → Child) :
    existing ch = ((List.finRange 16).filter fun i => (ch i).exist).map ch := by
  unfold existing; rw [List.filter_map]; rfl

theorem finRange_nodup : (List.finRange 16).Nodup := by decide

theorem existing_nil {ch : Nib → Child} (h : existing ch = []) (i : Nib) : (ch i).exist = false := by
  rw [existing_eq, List.map_eq_nil_iff, List.filter_eq_nil_iff] at h
  simpa using h i (List.mem_finRange i)

theorem existing_one {ch : Nib → Child} {c : Child} (h : existing ch = [c]) :
    ∃ j, ch j = c ∧ (ch j).exist = true ∧ ∀ i, (ch i).exist = true → i = j := by
  rw [existing_eq] at h
  obtain ⟨j, h1, h2⟩ := List.map_eq_singleton_iff.mp h
  have hm : ∀ i, i ∈ (List.finRange 16).filter (fun i => (ch i).exist) ↔ i ∈ [j] := fun i => by rw [h1]
  simp only [List.mem_filter, List.mem_finRange, true_and, List.mem_singleton] at hm
  exact ⟨j, h2, (hm j).mpr rfl, fun i hi => (hm i).mp hi⟩

theorem existing_two {ch : Nib → Child} {c c' : Child} {cs : List Child} (h : existing ch = c :: c' :: cs) :
    ∃ i j, i ≠ j ∧ (ch i).exist = true ∧ (ch j).exist = true := by
  rw [existing_eq] at h
  have hn := finRange_nodup.filter (fun i => (ch i).exist)
  have hm : ∀ i, i ∈ (List.finRange 16).filter (fun i => (ch i).exist) → (ch i).exist = true := by
    intro i hi; exact (List.mem_filter.mp hi).2
  match hl : (List.finRange 16).filter (fun i => (ch i).exist) with
  | [] => rw [hl] at h; simp at h
  | [_] => rw [hl] at h; simp at h
  | i :: j :: r =>
    rw [hl] at hn hm
    refine ⟨i, j, ?_, hm i (by simp), hm j (by simp)⟩
    intro e; subst e; simp at hn

theorem commonPrefix_split (a b : Nibbles) : ∃ a' b', a = commonPrefix a b ++ a' ∧ b = commonPrefix a b ++ b' ∧
    (a' = [] ∨ b' = [] ∨ ∃ i s j r, a' = i :: s ∧ b' = j :: r ∧ i ≠ j) := by
  induction a generalizing b with
  | nil => exact ⟨[], b, rfl, rfl, .inl rfl⟩
  | cons x a ih =>
    cases b with
    | nil => exact ⟨_, [], rfl, rfl, .inr (.inl rfl)⟩
    | cons y b =>
      by_cases h : x = y
      · subst h
        obtain ⟨a', b', h1, h2, h3⟩ := ih b
        refine ⟨a', b', ?_, ?_, h3⟩ <;> simp only [commonPrefix, if_true, List.cons_append]
        · rw [← h1]
        · rw [← h2]
      · simp only [commonPrefix, if_neg h]
        exact ⟨_, _, rfl, rfl, .inr (.inr ⟨_, _, _, _, rfl, rfl, h⟩)⟩

/-! ## The effect of `update` -/

/-- `V'` is `V` after setting the entry at `q` (to nothing if `value` is empty), with the hashes on the path to `q`
cleared and everything that is not above `q` unchanged. -/
structure Upd (q : Nibbles) (value : Bytes) (V V' : View) : Prop where
  loc : Loc V'
  off : ∀ k, ¬ k <+: q → V' k = V k
  entry : V' q = if value = [] then none else some (.leaf q value)
  path : ∀ {k ch i}, Br V' k ch → k <+: q → (ch i).exist = true →
    (k ++ [i] <+: q → (ch i).hash = zeroHash) ∧
    (¬ k ++ [i] <+: q → (ch i).hash = zeroHash ∨ ∃ ch0, Br V k ch0 ∧ ch0 i = ch i)
  one : ∃ x, ∀ {k ch i}, Br V' k ch → k <+: q → (ch i).exist = true → ¬ k ++ [i] <+: q →
    k ++ (ch i).suffix = x ∨ ∃ ch0, Br V k ch0 ∧ ch0 i = ch i

theorem upd_of {V V2 : View} {x q : Nibbles} {value : Bytes} (L2 : Loc V2) (hx : x <+: q)
    (off : ∀ k, ¬ k <+: q → V2 k = V k)
    (entry : V2 q = if value = [] then none else some (.leaf q value))
    (path : ∀ {k ch i}, Br V2 k ch → k <+: q → (ch i).exist = true →
      (k ++ [i] <+: q → k ++ [i] <+: x ∨ (ch i).hash = zeroHash) ∧
      (¬ k ++ [i] <+: q → (ch i).hash = zeroHash ∨ ∃ ch0, Br V k ch0 ∧ ch0 i = ch i))
    (one : ∃ x, ∀ {k ch i}, Br V2 k ch → k <+: q → (ch i).exist = true → ¬ k ++ [i] <+: q →
      k ++ (ch i).suffix = x ∨ ∃ ch0, Br V k ch0 ∧ ch0 i = ch i) :
    Upd q value V (zeroed x V2) where
  loc := L2.shape (zeroed_shape _ _)
  off := by
    intro k hk
    rw [← off k hk]
    unfold zeroed
    split
    · rename_i h
      rw [h]
      simp only [Option.some.injEq, NodeObj.branch.injEq, true_and]
      funext i
      rw [if_neg]
      exact fun h => hk (((List.prefix_append k [i]).trans h).trans hx)
    · rfl
  entry := by
    unfold zeroed
    rw [entry]
    split
    · rename_i h; split at h <;> simp at h
    · rfl
  path := by
    intro k ch i hb hk hi
    obtain ⟨ch2, hb2, he⟩ := (zeroed_shape x V2).symm.branch hb
    have hch : ch = fun i => if k ++ [i] <+: x then { ch2 i with hash := zeroHash } else ch2 i := by
      unfold Br zeroed at hb
      rw [hb2] at hb
      simpa using hb.symm
    have := path (i := i) hb2 hk (by rw [← (he i).1]; exact hi)
    by_cases h : k ++ [i] <+: x
    · have e : (ch i).hash = zeroHash := by rw [hch]; simp [h]
      exact ⟨fun _ => e, fun _ => .inl e⟩
    · have e : ch i = ch2 i := by rw [hch]; simp [h]
      rw [e]
      exact ⟨fun hh => (this.1 hh).resolve_left h, this.2⟩
  one := by
    obtain ⟨y, one⟩ := one
    refine ⟨y, ?_⟩
    intro k ch i hb hk hi hn
    obtain ⟨ch2, hb2, he⟩ := (zeroed_shape x V2).symm.branch hb
    have hch : ch = fun i => if k ++ [i] <+: x then { ch2 i with hash := zeroHash } else ch2 i := by
      unfold Br zeroed at hb
      rw [hb2] at hb
      simpa using hb.symm
    have h : ¬ k ++ [i] <+: x := fun h => hn (h.trans hx)
    have e : ch i = ch2 i := by rw [hch]; simp [h]
    rw [e] at hi ⊢
    exact one hb2 hk hi hn

/-- Replacing the value of an existing leaf. -/
theorem upd_replace {V : View} {q : Nibbles} {value : Bytes} {ks} (L : Loc V) (hq : q.length = 40) (hV : V q ≠ none)
    (hc : Chain V q ks) (hv : value ≠ []) :
    ∃ V', invV q ks (vset V q (.leaf q value)) = some V' ∧ Upd q value V V' := by
  have hbr : ∀ {k ch}, Br (vset V q (.leaf q value)) k ch ↔ Br V k ch := by
    intro k ch
    by_cases hk : k = q
    · subst hk
      simp only [Br, vset_self, Option.some.injEq, reduceCtorEq, false_iff]
      intro h; have := (L.branch h).2; omega
    · simp [Br, vset_ne _ _ _ hk]
  have hnn : ∀ {k}, vset V q (.leaf q value) k ≠ none ↔ V k ≠ none := by
    intro k
    by_cases hk : k = q
    · subst hk; simp [hV]
    · simp [vset_ne _ _ _ hk]
  have L2 : Loc (vset V q (.leaf q value)) := by
    refine ⟨?_, ?_, ?_, ?_, ?_, ?_⟩
    · obtain ⟨ch, h⟩ := L.root; exact ⟨ch, hbr.mpr h⟩
    · intro k p v h
      by_cases hk : k = q
      · subst hk
        rw [vset_self] at h
        simp only [Option.some.injEq, NodeObj.leaf.injEq] at h
        exact ⟨h.1.symm, hq, h.2 ▸ hv⟩
      · rw [vset_ne _ _ _ hk] at h; exact L.leaf h
    · intro k p ch h
      by_cases hk : k = q
      · subst hk; simp at h
      · rw [vset_ne _ _ _ hk] at h; exact L.branch h
    · intro k ch i h hi
      have := L.child (hbr.mp h) hi
      exact ⟨this.1, hnn.mpr this.2⟩
    · intro k ch h; exact L.two (hbr.mp h)
    · intro c h hne
      obtain ⟨k, ch, i, h1, h2, h3⟩ := L.parent (hnn.mp h) hne
      exact ⟨k, ch, i, hbr.mpr h1, h2, h3⟩
  have hc2 : Chain (vset V q (.leaf q value)) q ks := hc.congr (fun k hk _ => vset_ne _ _ _ (by rintro rfl; omega))
  refine ⟨_, inv_zeroed L2 hc2, upd_of L2 (List.prefix_refl _) ?_ ?_ ?_ ?_⟩
  · intro k hk; exact vset_ne _ _ _ (by rintro rfl; exact hk (List.prefix_refl _))
  · simp [hv]
  · intro k ch i hb hk hi
    exact ⟨fun h => .inl h, fun _ => .inr ⟨ch, hbr.mp hb, rfl⟩⟩
  · exact ⟨[], fun hb _ _ _ => .inr ⟨_, hbr.mp hb, rfl⟩⟩

theorem ne_of_len {a b : Nibbles} (h : a.length < b.length) : a ≠ b := by rintro rfl; omega

/-- Adding a new child to a branch. -/
theorem upd_add {V : View} {n q : Nibbles} {value : Bytes} {ks} {ch : Nib → Child} {i : Nib} {s : Nibbles} (L : Loc V)
    (hq : q.length = 40) (hb : Br V n ch) (hqe : q = n ++ i :: s) (hi : (ch i).exist = false)
    (hc : Chain V n ks) (hv : value ≠ []) :
    ∃ V', invV n ks (vset (vset V q (.leaf q value)) n (.branch n (setChild ch i ⟨i :: s, zeroHash, true⟩))) = some V' ∧
      Upd q value V V' := by
  have hnl : n.length < q.length := by rw [hqe]; simp
  have hnp : n <+: q := by rw [hqe]; exact List.prefix_append _ _
  have hnq : n ≠ q := ne_of_len hnl
  -- nothing below the missing child
  have hbelow : ∀ k, V k ≠ none → ¬ n ++ [i] <+: k := by
    intro k hk hpre
    have hlen := hpre.length_le
    simp only [List.length_append, List.length_singleton] at hlen
    obtain ⟨c, hl, hck⟩ := hb.route L hk ((List.prefix_append _ _).trans hpre) (by omega)
    obtain ⟨ch', i', s', hb', he', hs', hc'⟩ := id hl
    have := hb.unique hb'; subst this
    have hnc : n ++ [i'] <+: k := (by rw [hc']; exact snoc_pre_cons.mpr rfl : n ++ [i'] <+: c).trans hck
    have := pre_len_eq hpre hnc (by simp)
    simp only [List.append_cancel_left_eq, List.cons.injEq, and_true] at this
    subst this; rw [hi] at he'; simp at he'
  have hVq : V q = none := by
    apply Classical.byContradiction
    intro h; exact hbelow q h (by rw [hqe]; exact snoc_pre_cons.mpr rfl)
  generalize hV2 : vset (vset V q (.leaf q value)) n (.branch n (setChild ch i ⟨i :: s, zeroHash, true⟩)) = V2
  have e1 : V2 n = some (.branch n (setChild ch i ⟨i :: s, zeroHash, true⟩)) := by rw [← hV2]; simp
  have e2 : V2 q = some (.leaf q value) := by rw [← hV2, vset_ne _ _ _ (Ne.symm hnq)]; simp
  have e3 : ∀ k, k ≠ n → k ≠ q → V2 k = V k := by
    intro k h1 h2; rw [← hV2, vset_ne _ _ _ h1, vset_ne _ _ _ h2]
  have hnn : ∀ {k}, V k ≠ none → V2 k ≠ none := by
    intro k hk
    by_cases h1 : k = n
    · rw [h1, e1]; simp
    by_cases h2 : k = q
    · rw [h2, e2]; simp
    rw [e3 k h1 h2]; exact hk
  have hbr : ∀ {k chk}, Br V2 k chk → (k = n ∧ chk = setChild ch i ⟨i :: s, zeroHash, true⟩) ∨ (k ≠ n ∧ k ≠ q ∧ Br V k chk) := by
    intro k chk hk
    by_cases h1 : k = n
    · subst h1; unfold Br at hk; rw [e1] at hk; left; simpa using hk.symm
    by_cases h2 : k = q
    · subst h2; unfold Br at hk; rw [e2] at hk; simp at hk
    right; exact ⟨h1, h2, by unfold Br at *; rw [← e3 k h1 h2]; exact hk⟩
  have hexi : ∀ {j}, (ch j).exist = true → j ≠ i := by rintro j h rfl; rw [hi] at h; simp at h
  have L2 : Loc V2 := by
    refine ⟨?_, ?_, ?_, ?_, ?_, ?_⟩
    · by_cases h : n = []
      · subst h; exact ⟨_, e1⟩
      · obtain ⟨ch0, h0⟩ := L.root
        exact ⟨ch0, by unfold Br; rw [e3 [] (Ne.symm h) (by rintro rfl; simp at hq)]; exact h0⟩
    · intro k p v h
      by_cases h1 : k = n
      · rw [h1, e1] at h; simp at h
      by_cases h2 : k = q
      · rw [h2, e2] at h; simp only [Option.some.injEq, NodeObj.leaf.injEq] at h
        subst h2; exact ⟨h.1.symm, hq, h.2 ▸ hv⟩
      rw [e3 k h1 h2] at h; exact L.leaf h
    · intro k p chk h
      by_cases h1 : k = n
      · rw [h1, e1] at h; simp only [Option.some.injEq, NodeObj.branch.injEq] at h
        exact ⟨by rw [h1]; exact h.1.symm, by rw [h1]; omega⟩
      by_cases h2 : k = q
      · rw [h2, e2] at h; simp at h
      rw [e3 k h1 h2] at h; exact L.branch h
    · intro k chk j h hj
      rcases hbr h with ⟨rfl, rfl⟩ | ⟨h1, h2, h3⟩
      · by_cases hji : j = i
        · subst hji
          simp only [setChild_self]
          exact ⟨⟨s, rfl⟩, by rw [← hqe, e2]; simp⟩
        · rw [setChild_ne _ _ hji] at hj ⊢
          have := L.child hb hj
          exact ⟨this.1, hnn this.2⟩
      · have := L.child h3 hj
        exact ⟨this.1, hnn this.2⟩
    · intro k chk h hne
      rcases hbr h with ⟨rfl, rfl⟩ | ⟨h1, h2, h3⟩
      · obtain ⟨a, b, h4, h5, h6⟩ := L.two hb hne
        exact ⟨a, b, h4, by rw [setChild_ne _ _ (hexi h5)]; exact h5, by rw [setChild_ne _ _ (hexi h6)]; exact h6⟩
      · exact L.two h3 hne
    · intro c hcn hne
      by_cases h2 : c = q
      · exact ⟨n, _, i, e1, by simp [setChild_self], by simp [setChild_self, h2, hqe]⟩
      have hVc : V c ≠ none := by
        by_cases h1 : c = n
        · rw [h1, hb]; simp
        · rw [e3 c h1 h2] at hcn; exact hcn
      obtain ⟨k, chk, j, h4, h5, h6⟩ := L.parent hVc hne
      by_cases h1 : k = n
      · subst h1
        have := hb.unique h4; subst this
        exact ⟨k, _, j, e1, by rw [setChild_ne _ _ (hexi h5)]; exact h5, by rw [setChild_ne _ _ (hexi h5)]; exact h6⟩
      · refine ⟨k, chk, j, ?_, h5, h6⟩
        unfold Br; rw [e3 k h1 (by rintro rfl; rw [Br, hVq] at h4; simp at h4)]; exact h4
  have hc2 : Chain V2 n ks := hc.congr (fun k hk _ => e3 k (ne_of_len hk) (ne_of_len (by omega)))
  refine ⟨_, inv_zeroed L2 hc2, upd_of L2 hnp ?_ ?_ ?_ ?_⟩
  · intro k hk
    exact e3 k (by rintro rfl; exact hk hnp) (by rintro rfl; exact hk (List.prefix_refl _))
  · simp [e2, hv]
  · intro k chk j hbk hk hj
    rcases hbr hbk with ⟨rfl, rfl⟩ | ⟨h1, h2, h3⟩
    · by_cases hji : j = i
      · subst hji; simp [setChild_self]
      · rw [setChild_ne _ _ hji] at hj ⊢
        exact ⟨fun h => absurd (by rw [hqe] at h; exact snoc_pre_cons.mp h) hji, fun _ => .inr ⟨ch, hb, rfl⟩⟩
    · refine ⟨fun h => .inl ?_, fun _ => .inr ⟨chk, h3, rfl⟩⟩
      rcases pre_cases hk hnp with e | ⟨a, b⟩ | ⟨a, b⟩
      · exact absurd e h1
      · exact List.prefix_of_prefix_length_le h hnp (by simp; omega)
      · exfalso
        refine hbelow k (by rw [h3]; simp) ?_
        exact List.prefix_of_prefix_length_le (by rw [hqe]; exact snoc_pre_cons.mpr rfl) hk (by simp; omega)
  · refine ⟨[], ?_⟩
    intro k chk j hbk hk hj hn
    rcases hbr hbk with ⟨rfl, rfl⟩ | ⟨h1, h2, h3⟩
    · by_cases hji : j = i
      · subst hji; exact absurd (by rw [hqe]; exact snoc_pre_cons.mpr rfl) hn
      · rw [setChild_ne _ _ hji]; exact .inr ⟨ch, hb, rfl⟩
    · exact .inr ⟨chk, h3, rfl⟩

/-- Inserting a branch into a link. `n` is the old target of the link, `k0` its parent. -/
theorem upd_split {V : View} {n q k0 par : Nibbles} {value : Bytes} {ks} {i j : Nib} {s r : Nibbles} (L : Loc V)
    (hq : q.length = 40) (hl : Link V k0 n) (hn : n = par ++ i :: s) (hqe : q = par ++ j :: r) (hij : i ≠ j)
    (hkp : k0 <+: par) (hkl : k0.length < par.length) (hc : Chain V k0 ks) (hv : value ≠ []) :
    ∃ V', invV par (k0 :: ks) (vset (vset V q (.leaf q value)) par (.branch par
      (setChild (setChild (fun _ => Child.zero) i ⟨i :: s, zeroHash, true⟩) j ⟨j :: r, zeroHash, true⟩))) = some V' ∧
      Upd q value V V' := by
  have hpq : par <+: q := by rw [hqe]; exact List.prefix_append _ _
  have hpn : par <+: n := by rw [hn]; exact List.prefix_append _ _
  have hpl : par.length < q.length := by rw [hqe]; simp
  have hpnl : par.length < n.length := by rw [hn]; simp
  obtain ⟨ch0, m, t, hb0, he0, hs0, hn0⟩ := id hl
  -- the link from k0 towards par
  obtain ⟨t', ht'⟩ : ∃ t', par = k0 ++ m :: t' := by
    have h1 : k0 ++ [m] <+: n := by rw [hn0]; exact snoc_pre_cons.mpr rfl
    obtain ⟨u, hu⟩ := List.prefix_of_prefix_length_le h1 hpn (by simp; omega)
    exact ⟨u, by rw [← hu]; simp⟩
  have hVpar : V par = none := by
    apply Classical.byContradiction
    intro h
    have := hl.noInside L h hkp hkl hpn
    subst this; omega
  have hVn : V n ≠ none := hl.target L
  -- nodes between par and q
  have hbetween : ∀ k, V k ≠ none → k <+: q → k.length ≤ k0.length := by
    intro k hk hkq
    apply Classical.byContradiction
    intro hgt
    have hk0k : k0 <+: k := List.prefix_of_prefix_length_le (hkp.trans hpq) hkq (by omega)
    obtain ⟨c, hlc, hck⟩ := hb0.route L hk hk0k (by omega)
    have hcm : k0 ++ [m] <+: c := by
      have h1 : k0 ++ [m] <+: q := by rw [hqe, ht', List.append_assoc]; exact snoc_pre_cons.mpr rfl
      exact List.prefix_of_prefix_length_le h1 (hck.trans hkq) (by have := hlc.lt; simp; omega)
    have : c = n := hlc.same hl hcm (by rw [hn0]; exact snoc_pre_cons.mpr rfl)
    subst this
    have h1 : par ++ [i] <+: q := (by rw [hn]; exact snoc_pre_cons.mpr rfl : par ++ [i] <+: c).trans (hck.trans hkq)
    rw [hqe] at h1
    exact hij (snoc_pre_cons.mp h1)
  have hVq : V q = none := by
    apply Classical.byContradiction
    intro h; have := hbetween q h (List.prefix_refl _); omega
  have hpq' : par ≠ q := ne_of_len hpl
  have hk0q : k0 ≠ q := ne_of_len (by omega)
  have hk0p : k0 ≠ par := ne_of_len hkl
  have hb0' : V k0 = some (.branch k0 ch0) := hb0
  have hd : par.drop k0.length = m :: t' := by rw [ht']; simp
  generalize hchp : setChild (setChild (fun _ => Child.zero) i ⟨i :: s, zeroHash, true⟩) j ⟨j :: r, zeroHash, true⟩ = chp
  have hchpi : chp i = ⟨i :: s, zeroHash, true⟩ := by rw [← hchp, setChild_ne _ _ hij, setChild_self]
  have hchpj : chp j = ⟨j :: r, zeroHash, true⟩ := by rw [← hchp, setChild_self]
  have hchpe : ∀ a, (chp a).exist = true → a = i ∨ a = j := by
    intro a ha
    by_cases h1 : a = j
    · exact .inr h1
    by_cases h2 : a = i
    · exact .inl h2
    rw [← hchp, setChild_ne _ _ h1, setChild_ne _ _ h2] at ha
    simp [Child.zero] at ha
  simp only [invV, vset_ne _ _ _ hk0p, vset_ne _ _ _ hk0q, hb0', true_and, Nat.le_of_lt hkl, if_true, hd]
  generalize hch2 : setChild ch0 m ⟨m :: t', zeroHash, true⟩ = ch2
  have hch2m : ch2 m = ⟨m :: t', zeroHash, true⟩ := by rw [← hch2, setChild_self]
  have hch2n : ∀ a, a ≠ m → ch2 a = ch0 a := fun a ha => by rw [← hch2, setChild_ne _ _ ha]
  generalize hV2 : vset (vset (vset V q (.leaf q value)) par (.branch par chp)) k0 (.branch k0 ch2) = V2
  have e0 : V2 k0 = some (.branch k0 ch2) := by rw [← hV2]; simp
  have e1 : V2 par = some (.branch par chp) := by rw [← hV2, vset_ne _ _ _ (Ne.symm hk0p)]; simp
  have e2 : V2 q = some (.leaf q value) := by
    rw [← hV2, vset_ne _ _ _ (Ne.symm hk0q), vset_ne _ _ _ (Ne.symm hpq')]; simp
  have e3 : ∀ k, k ≠ k0 → k ≠ par → k ≠ q → V2 k = V k := by
    intro k h1 h2 h3; rw [← hV2, vset_ne _ _ _ h1, vset_ne _ _ _ h2, vset_ne _ _ _ h3]
  have hnn : ∀ {k}, V k ≠ none → V2 k ≠ none := by
    intro k hk
    by_cases h0 : k = k0
    · rw [h0, e0]; simp
    by_cases h1 : k = par
    · rw [h1, e1]; simp
    by_cases h2 : k = q
    · rw [h2, e2]; simp
    rw [e3 k h0 h1 h2]; exact hk
  have hbr : ∀ {k chk}, Br V2 k chk → (k = k0 ∧ chk = ch2) ∨ (k = par ∧ chk = chp) ∨
      (k ≠ k0 ∧ k ≠ par ∧ k ≠ q ∧ Br V k chk) := by
    intro k chk hk
    by_cases h0 : k = k0
    · subst h0; unfold Br at hk; rw [e0] at hk; left; simpa using hk.symm
    by_cases h1 : k = par
    · subst h1; unfold Br at hk; rw [e1] at hk; right; left; simpa using hk.symm
    by_cases h2 : k = q
    · subst h2; unfold Br at hk; rw [e2] at hk; simp at hk
    right; right; exact ⟨h0, h1, h2, by unfold Br at *; rw [← e3 k h0 h1 h2]; exact hk⟩
  have hex : ∀ a, (ch0 a).exist = true → (ch2 a).exist = true := by
    intro a ha
    by_cases h : a = m
    · rw [h, hch2m]
    · rw [hch2n a h]; exact ha
  have hk0l : k0.length < 40 := by omega
  have L2 : Loc V2 := by
    refine ⟨?_, ?_, ?_, ?_, ?_, ?_⟩
    · by_cases h : k0 = []
      · subst h; exact ⟨_, e0⟩
      · obtain ⟨c0, h0⟩ := L.root
        refine ⟨c0, ?_⟩
        unfold Br; rw [e3 [] (Ne.symm h) (by rintro rfl; simp at hkl) (by rintro rfl; simp at hq)]; exact h0
    · intro k p v h
      by_cases h0 : k = k0
      · rw [h0, e0] at h; simp at h
      by_cases h1 : k = par
      · rw [h1, e1] at h; simp at h
      by_cases h2 : k = q
      · rw [h2, e2] at h; simp only [Option.some.injEq, NodeObj.leaf.injEq] at h
        subst h2; exact ⟨h.1.symm, hq, h.2 ▸ hv⟩
      rw [e3 k h0 h1 h2] at h; exact L.leaf h
    · intro k p chk h
      by_cases h0 : k = k0
      · rw [h0, e0] at h; simp only [Option.some.injEq, NodeObj.branch.injEq] at h
        exact ⟨by rw [h0]; exact h.1.symm, by rw [h0]; omega⟩
      by_cases h1 : k = par
      · rw [h1, e1] at h; simp only [Option.some.injEq, NodeObj.branch.injEq] at h
        exact ⟨by rw [h1]; exact h.1.symm, by rw [h1]; omega⟩
      by_cases h2 : k = q
      · rw [h2, e2] at h; simp at h
      rw [e3 k h0 h1 h2] at h; exact L.branch h
    · intro k chk a h ha
      rcases hbr h with ⟨rfl, rfl⟩ | ⟨rfl, rfl⟩ | ⟨h0, h1, h2, h3⟩
      · by_cases ham : a = m
        · subst ham
          rw [hch2m]
          exact ⟨⟨t', rfl⟩, by rw [← ht', e1]; simp⟩
        · rw [hch2n a ham] at ha ⊢
          have := L.child hb0 ha
          exact ⟨this.1, hnn this.2⟩
      · rcases hchpe a ha with rfl | rfl
        · rw [hchpi]; exact ⟨⟨s, rfl⟩, by rw [← hn]; exact hnn hVn⟩
        · rw [hchpj]; exact ⟨⟨r, rfl⟩, by rw [← hqe, e2]; simp⟩
      · have := L.child h3 ha
        exact ⟨this.1, hnn this.2⟩
    · intro k chk h hne
      rcases hbr h with ⟨rfl, rfl⟩ | ⟨rfl, rfl⟩ | ⟨h0, h1, h2, h3⟩
      · obtain ⟨a, b, h4, h5, h6⟩ := L.two hb0 hne
        exact ⟨a, b, h4, hex a h5, hex b h6⟩
      · exact ⟨i, j, hij, by rw [hchpi], by rw [hchpj]⟩
      · exact L.two h3 hne
    · intro c hcn hne
      by_cases h2 : c = q
      · exact ⟨par, chp, j, e1, by rw [hchpj], by rw [hchpj, h2, hqe]⟩
      by_cases h1 : c = par
      · exact ⟨k0, ch2, m, e0, by rw [hch2m], by rw [hch2m, h1, ht']⟩
      have hVc : V c ≠ none := by
        by_cases h0 : c = k0
        · rw [h0, hb0']; simp
        · rw [e3 c h0 h1 h2] at hcn; exact hcn
      obtain ⟨k, chk, a, h4, h5, h6⟩ := L.parent hVc hne
      by_cases h0 : k = k0
      · subst h0
        have := hb0.unique h4; subst this
        by_cases ham : a = m
        · subst ham
          rw [hs0, ← hn0] at h6
          exact ⟨par, chp, i, e1, by rw [hchpi], by rw [hchpi, h6, hn]⟩
        · exact ⟨k, ch2, a, e0, hex a h5, by rw [hch2n a ham]; exact h6⟩
      · refine ⟨k, chk, a, ?_, h5, h6⟩
        unfold Br
        rw [e3 k h0 (by rintro rfl; rw [Br, hVpar] at h4; simp at h4) (by rintro rfl; rw [Br, hVq] at h4; simp at h4)]
        exact h4
  have hc2 : Chain V2 k0 ks :=
    hc.congr (fun k hk _ => e3 k (ne_of_len hk) (ne_of_len (by omega)) (ne_of_len (by omega)))
  refine ⟨_, inv_zeroed L2 hc2, upd_of L2 (hkp.trans hpq) ?_ ?_ ?_ ?_⟩
  · intro k hk
    exact e3 k (by rintro rfl; exact hk (hkp.trans hpq)) (by rintro rfl; exact hk hpq)
      (by rintro rfl; exact hk (List.prefix_refl _))
  · simp [e2, hv]
  · intro k chk a hbk hk ha
    rcases hbr hbk with ⟨rfl, rfl⟩ | ⟨rfl, rfl⟩ | ⟨h0, h1, h2, h3⟩
    · by_cases ham : a = m
      · subst ham; simp [hch2m]
      · rw [hch2n a ham]
        refine ⟨fun h => absurd ?_ ham, fun _ => .inr ⟨ch0, hb0, rfl⟩⟩
        rw [hqe, ht', List.append_assoc] at h
        exact snoc_pre_cons.mp h
    · rcases hchpe a ha with rfl | rfl
      · simp [hchpi]
      · simp [hchpj]
    · refine ⟨fun h => .inl ?_, fun _ => .inr ⟨chk, h3, rfl⟩⟩
      have hle := hbetween k (by rw [h3]; simp) hk
      have hlt : k.length < k0.length := by
        rcases Nat.lt_or_ge k.length k0.length with h | h
        · exact h
        · exact absurd (pre_len_eq hk (hkp.trans hpq) (by omega)) h0
      exact List.prefix_of_prefix_length_le h (hkp.trans hpq) (by simp; omega)
  · refine ⟨n, ?_⟩
    intro k chk a hbk hk ha hnq
    rcases hbr hbk with ⟨rfl, rfl⟩ | ⟨rfl, rfl⟩ | ⟨h0, h1, h2, h3⟩
    · by_cases ham : a = m
      · subst ham
        exact absurd (by rw [hqe, ht', List.append_assoc]; exact snoc_pre_cons.mpr rfl) hnq
      · rw [hch2n a ham]; exact .inr ⟨ch0, hb0, rfl⟩
    · rcases hchpe a ha with rfl | rfl
      · rw [hchpi]; exact .inl hn.symm
      · exact absurd (by rw [hqe]; exact snoc_pre_cons.mpr rfl) hnq
    · exact .inr ⟨chk, h3, rfl⟩

theorem prefixOf_iff (a b : Nibbles) : prefixOf a b = true ↔ a <+: b := by
  rw [C09_prefixOf_iff]
  constructor
  · rintro ⟨c, rfl⟩; exact ⟨c, rfl⟩
  · rintro ⟨c, rfl⟩; exact ⟨c, rfl⟩

/-- Deleting a leaf. -/
theorem upd_delete {V : View} {q k0 : Nibbles} {ks} (L : Loc V)
    (hq : q.length = 40) (hl : Link V k0 q) (hc : Chain V k0 ks) :
    ∃ V', pruneV q (k0 :: ks) (vdel V q) = some V' ∧ Upd q [] V V' := by
  obtain ⟨ch0, i, s, hb0, he0, hs0, hq0⟩ := id hl
  have hb0' : V k0 = some (.branch k0 ch0) := hb0
  have hkl := hl.lt
  have hkq : k0 <+: q := hl.pre
  have hk0q : k0 ≠ q := ne_of_len hkl
  have hd : q.drop k0.length = i :: s := by rw [hq0]; simp
  have hVq : ∃ v, V q = some (.leaf q v) := by
    rcases L.node_cases (hl.target L) with ⟨v, h, _⟩ | ⟨ch, h, h2⟩
    · exact ⟨v, h⟩
    · omega
  obtain ⟨v, hVq⟩ := hVq
  have hinside : ∀ k, V k ≠ none → k <+: q → k = q ∨ k = k0 ∨ (k <+: k0 ∧ k.length < k0.length) := by
    intro k hk hkq'
    rcases pre_cases hkq' hkq with e | ⟨a, b⟩ | ⟨a, b⟩
    · exact .inr (.inl e)
    · exact .inr (.inr ⟨a, b⟩)
    · exact .inl (hl.noInside L hk a b hkq')
  generalize hch' : setChild ch0 i { ch0 i with exist := false } = ch'
  have hci : (ch' i).exist = false := by rw [← hch', setChild_self]
  have hcn : ∀ a, a ≠ i → ch' a = ch0 a := fun a ha => by rw [← hch', setChild_ne _ _ ha]
  have hce : ∀ a, (ch' a).exist = true → a ≠ i := by rintro a h rfl; rw [hci] at h; simp at h
  -- keeping the branch
  have keep : (k0 = [] ∨ ∃ a b, a ≠ b ∧ (ch' a).exist = true ∧ (ch' b).exist = true) →
      ∃ V', invV k0 ks (vset (vdel V q) k0 (.branch k0 ch')) = some V' ∧ Upd q [] V V' := by
    intro htwo
    generalize hV2 : vset (vdel V q) k0 (.branch k0 ch') = V2
    have e0 : V2 k0 = some (.branch k0 ch') := by rw [← hV2]; simp
    have e1 : V2 q = none := by rw [← hV2, vset_ne _ _ _ (Ne.symm hk0q)]; simp
    have e3 : ∀ k, k ≠ k0 → k ≠ q → V2 k = V k := by
      intro k h1 h2; rw [← hV2, vset_ne _ _ _ h1, vdel_ne _ _ h2]
    have hnn : ∀ {k}, k ≠ q → V k ≠ none → V2 k ≠ none := by
      intro k hkq hk
      by_cases h0 : k = k0
      · rw [h0, e0]; simp
      rw [e3 k h0 hkq]; exact hk
    have hbr : ∀ {k chk}, Br V2 k chk → (k = k0 ∧ chk = ch') ∨ (k ≠ k0 ∧ k ≠ q ∧ Br V k chk) := by
      intro k chk hk
      by_cases h0 : k = k0
      · subst h0; unfold Br at hk; rw [e0] at hk; left; simpa using hk.symm
      by_cases h1 : k = q
      · subst h1; unfold Br at hk; rw [e1] at hk; simp at hk
      right; exact ⟨h0, h1, by unfold Br at *; rw [← e3 k h0 h1]; exact hk⟩
    have L2 : Loc V2 := by
      refine ⟨?_, ?_, ?_, ?_, ?_, ?_⟩
      · by_cases h : k0 = []
        · subst h; exact ⟨_, e0⟩
        · obtain ⟨c0, h0⟩ := L.root
          refine ⟨c0, ?_⟩
          unfold Br; rw [e3 [] (Ne.symm h) (by rintro rfl; simp at hq)]; exact h0
      · intro k p v h
        by_cases h0 : k = k0
        · rw [h0, e0] at h; simp at h
        by_cases h1 : k = q
        · rw [h1, e1] at h; simp at h
        rw [e3 k h0 h1] at h; exact L.leaf h
      · intro k p chk h
        by_cases h0 : k = k0
        · rw [h0, e0] at h; simp only [Option.some.injEq, NodeObj.branch.injEq] at h
          exact ⟨by rw [h0]; exact h.1.symm, by rw [h0]; omega⟩
        by_cases h1 : k = q
        · rw [h1, e1] at h; simp at h
        rw [e3 k h0 h1] at h; exact L.branch h
      · intro k chk a h ha
        rcases hbr h with ⟨rfl, rfl⟩ | ⟨h0, h1, h3⟩
        · have hai := hce a ha
          rw [hcn a hai] at ha ⊢
          have := L.child hb0 ha
          refine ⟨this.1, hnn ?_ this.2⟩
          obtain ⟨⟨u, hu⟩, _⟩ := this
          rw [hu, hq0]
          intro e
          simp only [List.append_cancel_left_eq, List.cons.injEq] at e
          exact hai e.1
        · have := L.child h3 ha
          refine ⟨this.1, hnn ?_ this.2⟩
          intro e
          exact h0 ((e ▸ L.link h3 ha : Link V k q).parent_unique L hl)
      · intro k chk h hne
        rcases hbr h with ⟨rfl, rfl⟩ | ⟨h0, h1, h3⟩
        · exact htwo.resolve_left hne
        · exact L.two h3 hne
      · intro c hcn' hne
        have hcq : c ≠ q := by rintro rfl; exact hcn' e1
        have hVc : V c ≠ none := by
          by_cases h0 : c = k0
          · rw [h0, hb0']; simp
          · rw [e3 c h0 hcq] at hcn'; exact hcn'
        obtain ⟨k, chk, a, h4, h5, h6⟩ := L.parent hVc hne
        by_cases h0 : k = k0
        · subst h0
          have := hb0.unique h4; subst this
          have hai : a ≠ i := by rintro rfl; rw [hs0, ← hq0] at h6; exact hcq h6
          exact ⟨k, ch', a, e0, by rw [hcn a hai]; exact h5, by rw [hcn a hai]; exact h6⟩
        · refine ⟨k, chk, a, ?_, h5, h6⟩
          unfold Br
          rw [e3 k h0 (by rintro rfl; rw [Br, hVq] at h4; simp at h4)]
          exact h4
    have hc2 : Chain V2 k0 ks := hc.congr (fun k hk _ => e3 k (ne_of_len hk) (ne_of_len (by omega)))
    refine ⟨_, inv_zeroed L2 hc2, upd_of L2 hkq ?_ ?_ ?_ ?_⟩
    · intro k hk
      exact e3 k (by rintro rfl; exact hk hkq) (by rintro rfl; exact hk (List.prefix_refl _))
    · simp [e1]
    · intro k chk a hbk hk ha
      rcases hbr hbk with ⟨rfl, rfl⟩ | ⟨h0, h1, h3⟩
      · have hai := hce a ha
        refine ⟨fun h => absurd ?_ hai, fun _ => .inr ⟨ch0, hb0, (hcn a hai).symm⟩⟩
        rw [hq0] at h
        exact snoc_pre_cons.mp h
      · refine ⟨fun h => .inl ?_, fun _ => .inr ⟨chk, h3, rfl⟩⟩
        rcases hinside k (by rw [h3]; simp) hk with e | e | ⟨_, b⟩
        · exact absurd e h1
        · exact absurd e h0
        · exact List.prefix_of_prefix_length_le h hkq (by simp; omega)
    · refine ⟨[], ?_⟩
      intro k chk a hbk hk ha hnq
      rcases hbr hbk with ⟨rfl, rfl⟩ | ⟨h0, h1, h3⟩
      · exact .inr ⟨ch0, hb0, (hcn a (hce a ha)).symm⟩
      · exact .inr ⟨chk, h3, rfl⟩
  -- rolling the branch up
  have roll : ∀ c, existing ch' = [c] → k0 ≠ [] →
      ∃ V', invV (k0 ++ c.suffix) ks (vdel (vset (vdel V q) k0 (.branch k0 ch')) k0) = some V' ∧ Upd q [] V V' := by
    intro c hex hk0
    obtain ⟨j, hjc, hje, hju⟩ := existing_one hex
    have hji := hce j hje
    cases ks with
    | nil => exact absurd hc hk0
    | cons g ks =>
      obtain ⟨hlg, hcg⟩ := hc
      obtain ⟨chg, m, t, hbg, heg, hsg, hk0g⟩ := id hlg
      have hbg' : V g = some (.branch g chg) := hbg
      have hgl := hlg.lt
      have hgk : g ≠ k0 := ne_of_len hgl
      have hgq : g ≠ q := ne_of_len (by omega)
      have hgp : g <+: q := hlg.pre.trans hkq
      rw [hcn j hji] at hje
      have hch := L.child hb0 hje
      obtain ⟨⟨u, hu⟩, hcV⟩ := hch
      have hcs : c.suffix = j :: u := by rw [← hjc, hcn j hji, hu]
      rw [hu] at hcV
      have hd2 : (k0 ++ c.suffix).drop g.length = m :: (t ++ j :: u) := by
        rw [hk0g, hcs]; simp [List.append_assoc]
      have hc0q : k0 ++ j :: u ≠ q := by
        rw [hq0]; intro e; simp only [List.append_cancel_left_eq, List.cons.injEq] at e; exact hji e.1
      have hc0k : k0 ++ j :: u ≠ k0 := by intro e; have := congrArg List.length e; simp at this
      have hc0e : k0 ++ j :: u = g ++ m :: (t ++ j :: u) := by rw [hk0g]; simp
      have hvd : (vdel (vset (vdel V q) k0 (.branch k0 ch')) k0) = vdel (vdel V q) k0 := by
        funext x; by_cases hx : x = k0
        · simp [hx]
        · rw [vdel_ne _ _ hx, vset_ne _ _ _ hx, vdel_ne _ _ hx]
      rw [hvd]
      simp only [invV, vdel_ne _ _ hgk, vdel_ne _ _ hgq, hbg', true_and, hd2]
      rw [if_pos (by simp; omega)]
      generalize hch2 : setChild chg m ⟨m :: (t ++ j :: u), zeroHash, true⟩ = ch2
      have hch2m : ch2 m = ⟨m :: (t ++ j :: u), zeroHash, true⟩ := by rw [← hch2, setChild_self]
      have hch2n : ∀ a, a ≠ m → ch2 a = chg a := fun a ha => by rw [← hch2, setChild_ne _ _ ha]
      generalize hV2 : vset (vdel (vdel V q) k0) g (.branch g ch2) = V2
      have e0 : V2 g = some (.branch g ch2) := by rw [← hV2]; simp
      have e1 : V2 q = none := by
        rw [← hV2, vset_ne _ _ _ (Ne.symm hgq), vdel_ne _ _ (Ne.symm hk0q)]; simp
      have e2 : V2 k0 = none := by rw [← hV2, vset_ne _ _ _ (Ne.symm hgk)]; simp
      have e3 : ∀ k, k ≠ g → k ≠ k0 → k ≠ q → V2 k = V k := by
        intro k h1 h2 h3; rw [← hV2, vset_ne _ _ _ h1, vdel_ne _ _ h2, vdel_ne _ _ h3]
      have hnn : ∀ {k}, k ≠ q → k ≠ k0 → V k ≠ none → V2 k ≠ none := by
        intro k hkq hkk hk
        by_cases h0 : k = g
        · rw [h0, e0]; simp
        rw [e3 k h0 hkk hkq]; exact hk
      have hbr : ∀ {k chk}, Br V2 k chk → (k = g ∧ chk = ch2) ∨ (k ≠ g ∧ k ≠ k0 ∧ k ≠ q ∧ Br V k chk) := by
        intro k chk hk
        by_cases h0 : k = g
        · subst h0; unfold Br at hk; rw [e0] at hk; left; simpa using hk.symm
        by_cases h1 : k = q
        · subst h1; unfold Br at hk; rw [e1] at hk; simp at hk
        by_cases h2 : k = k0
        · subst h2; unfold Br at hk; rw [e2] at hk; simp at hk
        right; exact ⟨h0, h2, h1, by unfold Br at *; rw [← e3 k h0 h2 h1]; exact hk⟩
      have hex2 : ∀ a, (chg a).exist = true → (ch2 a).exist = true := by
        intro a ha
        by_cases h : a = m
        · rw [h, hch2m]
        · rw [hch2n a h]; exact ha
      -- links that do not come from k0 or g never lead to q or k0
      have hlq : ∀ {k c}, Link V k c → k ≠ k0 → c ≠ q := by
        rintro k c h hk rfl; exact hk (h.parent_unique L hl)
      have hlk : ∀ {k c}, Link V k c → k ≠ g → c ≠ k0 := by
        rintro k c h hk rfl; exact hk (h.parent_unique L hlg)
      have L2 : Loc V2 := by
        refine ⟨?_, ?_, ?_, ?_, ?_, ?_⟩
        · by_cases h : g = []
          · subst h; exact ⟨_, e0⟩
          · obtain ⟨c0, h0⟩ := L.root
            refine ⟨c0, ?_⟩
            unfold Br; rw [e3 [] (Ne.symm h) (Ne.symm hk0) (by rintro rfl; simp at hq)]; exact h0
        · intro k p v h
          by_cases h0 : k = g
          · rw [h0, e0] at h; simp at h
          by_cases h1 : k = q
          · rw [h1, e1] at h; simp at h
          by_cases h2 : k = k0
          · rw [h2, e2] at h; simp at h
          rw [e3 k h0 h2 h1] at h; exact L.leaf h
        · intro k p chk h
          by_cases h0 : k = g
          · rw [h0, e0] at h; simp only [Option.some.injEq, NodeObj.branch.injEq] at h
            exact ⟨by rw [h0]; exact h.1.symm, by rw [h0]; omega⟩
          by_cases h1 : k = q
          · rw [h1, e1] at h; simp at h
          by_cases h2 : k = k0
          · rw [h2, e2] at h; simp at h
          rw [e3 k h0 h2 h1] at h; exact L.branch h
        · intro k chk a h ha
          rcases hbr h with ⟨rfl, rfl⟩ | ⟨h0, h1, h2, h3⟩
          · by_cases ham : a = m
            · subst ham
              rw [hch2m]
              exact ⟨⟨_, rfl⟩, by rw [← hc0e]; exact hnn hc0q hc0k hcV⟩
            · rw [hch2n a ham] at ha ⊢
              have := L.child hbg ha
              refine ⟨this.1, hnn (hlq (L.link hbg ha) hgk) ?_ this.2⟩
              obtain ⟨⟨u', hu'⟩, _⟩ := this
              rw [hu', hk0g]; intro e; simp only [List.append_cancel_left_eq, List.cons.injEq] at e; exact ham e.1
          · have := L.child h3 ha
            exact ⟨this.1, hnn (hlq (L.link h3 ha) h1) (hlk (L.link h3 ha) h0) this.2⟩
        · intro k chk h hne
          rcases hbr h with ⟨rfl, rfl⟩ | ⟨h0, h1, h2, h3⟩
          · obtain ⟨a, b, h4, h5, h6⟩ := L.two hbg hne
            exact ⟨a, b, h4, hex2 a h5, hex2 b h6⟩
          · exact L.two h3 hne
        · intro c' hcn' hne
          have hcq : c' ≠ q := by rintro rfl; exact hcn' e1
          have hck : c' ≠ k0 := by rintro rfl; exact hcn' e2
          have hVc : V c' ≠ none := by
            by_cases h0 : c' = g
            · rw [h0, hbg']; simp
            · rw [e3 c' h0 hck hcq] at hcn'; exact hcn'
          obtain ⟨k, chk, a, h4, h5, h6⟩ := L.parent hVc hne
          by_cases h0 : k = g
          · subst h0
            have := hbg.unique h4; subst this
            have ham : a ≠ m := by rintro rfl; rw [hsg, ← hk0g] at h6; exact hck h6
            exact ⟨k, ch2, a, e0, hex2 a h5, by rw [hch2n a ham]; exact h6⟩
          by_cases h1 : k = k0
          · subst h1
            have := hb0.unique h4; subst this
            have hai : a ≠ i := by rintro rfl; rw [hs0, ← hq0] at h6; exact hcq h6
            have haj : a = j := hju a (by rw [hcn a hai]; exact h5)
            subst haj
            rw [hu] at h6
            exact ⟨g, ch2, m, e0, by rw [hch2m], by rw [hch2m, h6, hc0e]⟩
          · refine ⟨k, chk, a, ?_, h5, h6⟩
            unfold Br
            rw [e3 k h0 h1 (by rintro rfl; rw [Br, hVq] at h4; simp at h4)]
            exact h4
      have hc2 : Chain V2 g ks :=
        hcg.congr (fun k hk _ => e3 k (ne_of_len hk) (ne_of_len (by omega)) (ne_of_len (by omega)))
      refine ⟨_, inv_zeroed L2 hc2, upd_of L2 hgp ?_ ?_ ?_ ?_⟩
      · intro k hk
        exact e3 k (by rintro rfl; exact hk hgp) (by rintro rfl; exact hk hkq) (by rintro rfl; exact hk (List.prefix_refl _))
      · simp [e1]
      · intro k chk a hbk hk ha
        rcases hbr hbk with ⟨rfl, rfl⟩ | ⟨h0, h1, h2, h3⟩
        · by_cases ham : a = m
          · subst ham; simp [hch2m]
          · rw [hch2n a ham]
            refine ⟨fun h => absurd ?_ ham, fun _ => .inr ⟨chg, hbg, rfl⟩⟩
            rw [hq0, hk0g, List.append_assoc] at h
            exact snoc_pre_cons.mp h
        · refine ⟨fun h => .inl ?_, fun _ => .inr ⟨chk, h3, rfl⟩⟩
          rcases hinside k (by rw [h3]; simp) hk with e | e | ⟨hkk, b⟩
          · exact absurd e h2
          · exact absurd e h1
          · rcases pre_cases hk hgp with e | ⟨_, b'⟩ | ⟨a', b'⟩
            · exact absurd e h0
            · exact List.prefix_of_prefix_length_le h hgp (by simp; omega)
            · exact absurd (hlg.noInside L (by rw [h3]; simp) a' b' hkk) h1
      · refine ⟨[], ?_⟩
        intro k chk a hbk hk ha hnq
        rcases hbr hbk with ⟨rfl, rfl⟩ | ⟨h0, h1, h2, h3⟩
        · by_cases ham : a = m
          · subst ham
            exact absurd (by rw [hq0, hk0g, List.append_assoc]; exact snoc_pre_cons.mpr rfl) hnq
          · rw [hch2n a ham]; exact .inr ⟨chg, hbg, rfl⟩
        · exact .inr ⟨chk, h3, rfl⟩
  -- assemble
  have hnk : k0 ∉ ks := hc.not_mem
  simp only [pruneV, vdel_ne _ _ hk0q, hb0', true_and, hnk, not_false_eq_true, if_true, hd, hch']
  have hlz : k0.length = 0 ↔ k0 = [] := List.length_eq_zero_iff
  match hex : existing ch' with
  | [] =>
    have hk0 : k0 = [] := by
      apply Classical.byContradiction
      intro h
      obtain ⟨a, b, h1, h2, h3⟩ := L.two hb0 h
      by_cases ha : a = i
      · have := existing_nil hex b
        rw [hcn b (fun e => h1 (ha.trans e.symm)), h3] at this; simp at this
      · have := existing_nil hex a
        rw [hcn a ha, h2] at this; simp at this
    simp only [hlz.mpr hk0, if_true]
    exact keep (.inl hk0)
  | [c] =>
    by_cases hk0 : k0 = []
    · simp only [hlz.mpr hk0, Nat.lt_irrefl, if_false, gt_iff_lt]
      exact keep (.inl hk0)
    · have : k0.length > 0 := List.length_pos_iff.mpr hk0
      simp only [this, if_true]
      exact roll c hex hk0
  | c :: c' :: cs =>
    obtain h := existing_two hex
    exact keep (.inr h)

/-- `update` from a node on the path to `q`. -/
theorem upd_spec {V : View} (L : Loc V) {q : Nibbles} {value : Bytes} (hq : q.length = 40)
    (hdel : value = [] → V q ≠ none) : ∀ (fuel : Nat) (n : Nibbles) (ks : List Nibbles), 40 < fuel + n.length →
    V n ≠ none → Chain V n ks →
    (n = [] ∨ ∃ k ks' i, ks = k :: ks' ∧ k ++ [i] <+: n ∧ k ++ [i] <+: q) →
    ∃ V', updV fuel n q value ks V = some V' ∧ Upd q value V V' := by
  intro fuel
  induction fuel with
  | zero => intro n ks h1 hn; have := L.len_le hn; omega
  | succ fuel ih =>
    intro n ks hf hn hc hor
    unfold updV
    have hnl := L.len_le hn
    have hqks : q ∉ ks := fun h => by have := (hc.mem h).2.1; omega
    by_cases hpre : prefixOf n q = true
    · simp only [hpre, not_true_eq_false, if_false]
      have hnq : n <+: q := (prefixOf_iff _ _).mp hpre
      by_cases he : n = q
      · subst he
        simp only [if_true, hqks, not_false_eq_true]
        by_cases hv : value = []
        · subst hv
          simp only [List.length_nil, if_true]
          cases ks with
          | nil => rw [show n = [] from hc] at hq; simp at hq
          | cons k0 ks => exact upd_delete L hq hc.1 hc.2
        · have : value.length ≠ 0 := fun h => hv (List.length_eq_zero_iff.mp h)
          rw [if_neg this]
          exact upd_replace L hq hn hc hv
      · rw [if_neg he]
        have hlt : n.length < q.length := by
          rcases Nat.lt_or_ge n.length q.length with h | h
          · exact h
          · exact absurd (hnq.eq_of_length (Nat.le_antisymm hnq.length_le h)) he
        rcases L.node_cases hn with ⟨_, _, h, _⟩ | ⟨ch, hb, _⟩
        · omega
        have hb' : V n = some (.branch n ch) := hb
        simp only [hb', true_and, Nat.le_of_lt hlt, hqks, not_false_eq_true, Ne.symm he, ne_eq, if_true]
        obtain ⟨t, ht⟩ := id hnq
        cases t with
        | nil => simp at ht; exact absurd ht he
        | cons i s =>
          have hd : q.drop n.length = i :: s := by rw [← ht]; simp
          simp only [hd]
          by_cases hex : (ch i).exist = true
          · rw [if_pos hex]
            have hlk := L.link hb hex
            obtain ⟨⟨u, hu⟩, _⟩ := L.child hb hex
            refine ih _ _ (by have := hlk.lt; omega) (hlk.target L) ⟨hlk, hc⟩ (.inr ⟨n, ks, i, rfl, ?_, ?_⟩)
            · rw [hu]; exact snoc_pre_cons.mpr rfl
            · rw [← ht]; exact snoc_pre_cons.mpr rfl
          · rw [if_neg hex]
            have hexf : (ch i).exist = false := by simpa using hex
            refine upd_add L hq hb ht.symm hexf hc ?_
            intro hv
            obtain ⟨c, hl, hck⟩ := hb.route L (hdel hv) hnq hlt
            obtain ⟨ch', i', s', hb2, he', hs', hc'⟩ := id hl
            have := hb.unique hb2; subst this
            have h1 : n ++ [i'] <+: q := (by rw [hc']; exact snoc_pre_cons.mpr rfl : n ++ [i'] <+: c).trans hck
            rw [← ht] at h1
            have := snoc_pre_cons.mp h1
            subst this; exact hex he'
    · simp only [hpre, not_false_eq_true, if_true, Bool.false_eq_true]
      have hnq : ¬ n <+: q := fun h => hpre ((prefixOf_iff _ _).mpr h)
      rcases hor with rfl | ⟨k0, ks', m, rfl, hkn, hkq⟩
      · exact absurd (List.nil_prefix) hnq
      obtain ⟨a', b', h1, h2, h3⟩ := commonPrefix_split n q
      have hcp := C09_commonPrefix n q
      generalize commonPrefix n q = par at h1 h2 hcp
      obtain ⟨i, s, j, r, rfl, rfl, hij⟩ : ∃ i s j r, a' = i :: s ∧ b' = j :: r ∧ i ≠ j := by
        rcases h3 with rfl | rfl | h
        · exact absurd ⟨b', by rw [h2, h1]; simp⟩ hnq
        · exfalso
          have e1 : par = q := by rw [h2]; simp
          subst e1
          have : a'.length = 0 := by have := congrArg List.length h1; simp at this; omega
          rw [List.length_eq_zero_iff.mp this] at h1
          exact hnq ⟨[], by rw [h1]; simp⟩
        · exact h
      have hkp : k0 ++ [m] <+: par := by
        obtain ⟨u, hu⟩ := hkn
        obtain ⟨u', hu'⟩ := hkq
        obtain ⟨c, hc⟩ := hcp.2.2 (k0 ++ [m]) ⟨u, hu.symm⟩ ⟨u', hu'.symm⟩
        exact ⟨c, hc.symm⟩
      have hkpl : k0.length < par.length := by have := hkp.length_le; simp at this; omega
      have hparks : par ∉ k0 :: ks' := by
        intro h
        rcases List.mem_cons.mp h with rfl | h
        · omega
        · have := (hc.2.mem h).2.1; omega
      rw [if_pos ⟨hqks, hparks, by rw [h1]; simp, by rw [h2]; simp⟩]
      have d1 : n.drop par.length = i :: s := by rw [h1]; simp
      have d2 : q.drop par.length = j :: r := by rw [h2]; simp
      simp only [d1, d2]
      refine upd_split L hq hc.1 h1 h2 hij ((List.prefix_append _ _).trans hkp) hkpl hc.2 ?_
      intro hv
      -- an empty value cannot be inserted: q is a node, so the route leads to it
      have hb0 : ∃ ch0, Br V k0 ch0 := (hc.mem (by simp : k0 ∈ k0 :: ks')).2.2
      obtain ⟨ch0, hb0⟩ := hb0
      have hk0l : k0.length < q.length := by have := hkq.length_le; simp at this; omega
      obtain ⟨c, hl, hck⟩ := hb0.route L (hdel hv) ((List.prefix_append _ _).trans hkq) hk0l
      have hcm : k0 ++ [m] <+: c := List.prefix_of_prefix_length_le hkq hck (by have := hl.lt; simp; omega)
      have := hl.same hc.1 hcm hkn
      subst this
      exact hnq hck

end Nimiq.Tree
