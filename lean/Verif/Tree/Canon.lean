import Verif.Tree.Hashes
import Verif.Tree.Spec
/-!
# A clean, locally well-formed view is the canonical tree of its leaves
-/
namespace Nimiq.Tree

variable {H : Bytes → Hash32}

theorem keyNibs_eq (a : Addr) : keyNibs a = Spec.nibbles a := by
  unfold keyNibs Spec.nibbles
  generalize a.val = l
  induction l with
  | nil => rfl
  | cons b bs ih =>
    simp only [keyToNibbles, List.map_cons, ih, List.flatMap_cons, List.cons_append, List.nil_append]
    have e : ∀ b : UInt8, toNib (b >>> 4) = Fin.ofNat 16 (b.toNat / 16) ∧ toNib (b &&& 0xF) = Fin.ofNat 16 (b.toNat % 16) :=
      u8_all (P := fun b => toNib (b >>> 4) = Fin.ofNat 16 (b.toNat / 16) ∧ toNib (b &&& 0xF) = Fin.ofNat 16 (b.toNat % 16))
        (by decide +kernel)
    rw [(e b).1, (e b).2]

theorem keyNibs_length (a : Addr) : (keyNibs a).length = 40 := by
  unfold keyNibs; rw [List.length_map, keyToNibbles_length, a.property]

theorem toNib_inj_map {l l' : Bytes} (h : ∀ n ∈ l, n.toNat < 16) (h' : ∀ n ∈ l', n.toNat < 16)
    (e : l.map toNib = l'.map toNib) : l = l' := by
  induction l generalizing l' with
  | nil => cases l' <;> simp_all
  | cons x l ih =>
    cases l' with
    | nil => simp at e
    | cons y l' =>
      simp only [List.map_cons, List.cons.injEq] at e
      have hx := h x (by simp)
      have hy := h' y (by simp)
      have : x.toNat = y.toNat := by
        have := congrArg Fin.val e.1
        simp only [toNib] at this
        omega
      rw [UInt8.toNat_inj.mp this, ih (fun n hn => h n (by simp [hn])) (fun n hn => h' n (by simp [hn])) e.2]

theorem keyNibs_inj {a b : Addr} (h : keyNibs a = keyNibs b) : a = b := by
  have h1 := toNib_inj_map (C08_nibbles a.val a.property).2.1 (C08_nibbles b.val b.property).2.1 h
  have := toKeyLoop_keyToNibbles a.val
  rw [h1, toKeyLoop_keyToNibbles] at this
  exact Subtype.ext this.symm

theorem keyNibs_surj {p : Nibbles} (h : p.length = 40) : ∃ a : Addr, keyNibs a = p := by
  obtain ⟨k, h1, h2, h3⟩ := C08_bijection (p.map fun n => UInt8.ofNat n.val) (by simpa using h) (by
    intro n hn
    obtain ⟨m, _, rfl⟩ := List.mem_map.mp hn
    rw [UInt8.toNat_ofNat']; omega)
  refine ⟨⟨k, h1⟩, ?_⟩
  unfold keyNibs
  rw [h3, List.map_map]
  conv => rhs; rw [← List.map_id p]
  apply List.map_congr_left
  intro n _
  apply Fin.ext
  simp only [Function.comp, toNib, UInt8.toNat_ofNat', id]
  omega

theorem leafAt_nibs (M : Spec.Mapping) (a : Addr) : Spec.leafAt M (keyNibs a) = M a := by
  unfold Spec.leafAt
  have h : ∃ b, Spec.nibbles b = keyNibs a := ⟨a, (keyNibs_eq a).symm⟩
  rw [dif_pos h]
  congr 1
  apply keyNibs_inj
  rw [keyNibs_eq]; exact h.choose_spec

theorem hexOf_eq (p : Nibbles) : hexOf p = p.map Spec.digit := by
  unfold hexOf
  apply List.map_congr_left
  intro n _
  have : ∀ n : Fin 16, hexTable.getD n.val 0 = Spec.digit n := by decide +kernel
  exact this n

theorem leafBytes_eq (p v) : leafBytes p v = Spec.leafEnc p v := by
  simp [leafBytes, Spec.leafEnc, hexOf_eq]

theorem branchBytes_eq (p ch) :
    branchBytes p ch = Spec.branchEnc p ((existing ch).map fun c => (c.suffix, c.hash)) := by
  simp [branchBytes, Spec.branchEnc, hexOf_eq, List.flatMap_def, Function.comp_def]

/-! ## Children lists -/

theorem kids_single {sub : Nib → Option (Nibbles × Hash32)} {i : Nib} {r} (hi : sub i = some r)
    (hj : ∀ j, j ≠ i → sub j = none) : Spec.kids sub = [(i :: r.1, r.2)] := by
  unfold Spec.kids
  have : ∀ l : List Nib, l.Nodup → i ∈ l →
      l.filterMap (fun i => (sub i).map fun r => (i :: r.1, r.2)) = [(i :: r.1, r.2)] := by
    intro l
    induction l with
    | nil => intro _ h; simp at h
    | cons x l ih =>
      intro hnd hm
      obtain ⟨h1, h2⟩ := List.nodup_cons.mp hnd
      by_cases hx : x = i
      · subst hx
        have : l.filterMap (fun i => (sub i).map fun r => (i :: r.1, r.2)) = [] := by
          rw [List.filterMap_eq_nil_iff]
          intro y hy
          rw [hj y (by rintro rfl; exact h1 hy)]; rfl
        simp [hi, this]
      · rw [List.filterMap_cons, hj x hx]
        exact ih h2 (by simpa [Ne.symm hx] using hm)
  exact this _ finRange_nodup (List.mem_finRange i)

theorem kids_none {sub : Nib → Option (Nibbles × Hash32)} (h : ∀ j, sub j = none) : Spec.kids sub = [] := by
  unfold Spec.kids
  rw [List.filterMap_eq_nil_iff]
  intro y _; rw [h y]; rfl

theorem kids_existing {sub : Nib → Option (Nibbles × Hash32)} {ch : Nib → Child}
    (h1 : ∀ i, (ch i).exist = true → ∃ s, (ch i).suffix = i :: s ∧ sub i = some (s, (ch i).hash))
    (h2 : ∀ i, (ch i).exist = false → sub i = none) :
    Spec.kids sub = (existing ch).map fun c => (c.suffix, c.hash) := by
  unfold Spec.kids existing
  generalize List.finRange 16 = l
  induction l with
  | nil => rfl
  | cons x l ih =>
    rw [List.filterMap_cons, List.map_cons, ih]
    cases hx : (ch x).exist with
    | true =>
      obtain ⟨s, hs, hsub⟩ := h1 x hx
      rw [List.filter_cons_of_pos (by simpa using hx), List.map_cons]
      simp [hsub, hs]
    | false =>
      rw [List.filter_cons_of_neg (by simpa using hx)]
      simp [h2 x hx]

theorem existing_length_two {ch : Nib → Child} {i j : Nib} (hij : i ≠ j) (hi : (ch i).exist = true)
    (hj : (ch j).exist = true) : ∃ c c' cs, existing ch = c :: c' :: cs := by
  match hex : existing ch with
  | [] => have := existing_nil hex i; rw [hi] at this; simp at this
  | [c] =>
    obtain ⟨k, _, _, hk⟩ := existing_one hex
    exact absurd ((hk i hi).trans (hk j hj).symm) hij
  | c :: c' :: cs => exact ⟨c, c', cs, rfl⟩

/-! ## The canonical tree -/

theorem top_none {V : View} {L : Nibbles → Bytes} (hL : ∀ p, p.length = 40 → V p = none → L p = []) :
    ∀ (d : Nat) (p : Nibbles), p.length + d = 40 → (∀ k, p <+: k → V k = none) → Spec.top H L d p = none := by
  intro d
  induction d with
  | zero =>
    intro p hp h
    simp [Spec.top, hL p (by omega) (h p (List.prefix_refl _))]
  | succ d ih =>
    intro p hp h
    simp only [Spec.top]
    rw [kids_none (fun i => ih (p ++ [i]) (by simp; omega) (fun k hk => h k ((List.prefix_append _ _).trans hk)))]

/-- The children of a branch of the view are the children in the specification. -/
theorem kids_branch {V : View} {L : Nibbles → Bytes} (Lo : Loc V) (hC : Clean H V)
    (hL : ∀ p, p.length = 40 → V p = none → L p = []) {p : Nibbles} {ch : Nib → Child} {d : Nat} (hp : p.length + d + 1 = 40)
    (hb : Br V p ch)
    (ih : ∀ (c : Nibbles) (p' : Nibbles) (o : NodeObj), p'.length + d = 40 → Link V p c → p <+: p' →
      p.length < p'.length → p' <+: c → V c = some o → Spec.top H L d p' = some (c.drop p'.length, objHash H o)) :
    Spec.kids (fun i => Spec.top H L d (p ++ [i])) = (existing ch).map fun c => (c.suffix, c.hash) := by
  apply kids_existing
  · intro i hi
    obtain ⟨⟨s, hs⟩, htn⟩ := Lo.child hb hi
    have hl := Lo.link hb hi
    refine ⟨s, hs, ?_⟩
    obtain ⟨o, ho⟩ := Option.ne_none_iff_exists'.mp htn
    rw [ih (p ++ (ch i).suffix) (p ++ [i]) o (by simp; omega) hl (List.prefix_append _ _) (by simp)
      (by rw [hs]; exact snoc_pre_cons.mpr rfl) ho]
    rw [hC p ch i hb hi o ho, hs]
    simp
  · intro i hi
    apply top_none hL d _ (by simp; omega)
    intro k hk
    apply Classical.byContradiction
    intro hne
    have hlen : p.length < k.length := by have := hk.length_le; simp at this; omega
    obtain ⟨c, hl, hck⟩ := hb.route Lo hne ((List.prefix_append _ _).trans hk) hlen
    obtain ⟨ch', j, s, hb', he', hs', rfl⟩ := hl
    have := hb.unique hb'; subst this
    have hj : p ++ [j] <+: k := (snoc_pre_cons.mpr rfl : p ++ [j] <+: p ++ j :: s).trans hck
    have := pre_len_eq hk hj (by simp)
    simp only [List.append_cancel_left_eq, List.cons.injEq, and_true] at this
    subst this; rw [hi] at he'; simp at he'

theorem top_link {V : View} {L : Nibbles → Bytes} (Lo : Loc V) (hC : Clean H V)
    (hL : ∀ p, p.length = 40 → V p = none → L p = []) (hL' : ∀ p v, V p = some (.leaf p v) → L p = v) :
    ∀ (d : Nat) (k0 c p : Nibbles) (o : NodeObj), p.length + d = 40 → Link V k0 c → k0 <+: p → k0.length < p.length →
      p <+: c → V c = some o → Spec.top H L d p = some (c.drop p.length, objHash H o) := by
  intro d
  induction d with
  | zero =>
    intro k0 c p o hp hl h1 h2 h3 ho
    have hc := Lo.len_le (by rw [ho]; simp : V c ≠ none)
    have : p = c := h3.eq_of_length (by have := h3.length_le; omega)
    subst this
    rcases Lo.node_cases (by rw [ho]; simp : V p ≠ none) with ⟨v, hv, _, hne⟩ | ⟨ch, hb, hlt⟩
    · rw [ho] at hv
      simp only [Option.some.injEq] at hv
      subst hv
      simp only [Spec.top, hL' p v ho, if_neg hne, List.drop_length, objHash, leafBytes_eq]
    · omega
  | succ d ih =>
    intro k0 c p o hp hl h1 h2 h3 ho
    simp only [Spec.top]
    by_cases hpc : p = c
    · subst hpc
      rcases Lo.node_cases (by rw [ho]; simp : V p ≠ none) with ⟨v, hv, h40, _⟩ | ⟨ch, hb, hlt⟩
      · omega
      rw [kids_branch Lo hC hL (by omega) hb (fun c p' o a b e f g h => ih p c p' o a b e f g h)]
      have hpne : p ≠ [] := by rintro rfl; simp at h2
      obtain ⟨i, j, hij, hi, hj⟩ := Lo.two hb hpne
      obtain ⟨a, b, cs, hex⟩ := existing_length_two hij hi hj
      have hb' : V p = some (.branch p ch) := hb
      rw [ho] at hb'
      simp only [Option.some.injEq] at hb'
      subst hb'
      rw [hex]
      simp only [List.map_cons, List.drop_length, objHash, branchBytes_eq, hex]
    · have hlt : p.length < c.length := by
        rcases Nat.lt_or_ge p.length c.length with h | h
        · exact h
        · exact absurd (h3.eq_of_length (Nat.le_antisymm h3.length_le h)) hpc
      obtain ⟨i, hi⟩ := pre_next h3 hlt
      have hsub : Spec.top H L d (p ++ [i]) = some (c.drop (p.length + 1), objHash H o) := by
        have := ih k0 c (p ++ [i]) o (by simp; omega) hl (h1.trans (List.prefix_append _ _)) (by simp; omega) hi ho
        simpa using this
      rw [kids_single hsub]
      · simp only [Option.some.injEq, Prod.mk.injEq, and_true]
        obtain ⟨t, rfl⟩ := hi
        rw [List.append_assoc, List.drop_left]
        have : List.drop (p.length + 1) (p ++ ([i] ++ t)) = t := by
          rw [← List.drop_drop]; simp
        rw [this]; rfl
      · intro j hj
        apply top_none hL d _ (by simp; omega)
        intro k hk
        apply Classical.byContradiction
        intro hne
        have hpk : p <+: k := (List.prefix_append _ _).trans hk
        have hlen : p.length < k.length := by have := hk.length_le; simp at this; omega
        obtain ⟨ch0, _, _, hb0, _⟩ := id hl
        obtain ⟨c', hl', hck⟩ := hb0.route Lo hne (h1.trans hpk) (by omega)
        obtain ⟨m, hm⟩ := pre_next h1 h2
        have hmc' : k0 ++ [m] <+: c' :=
          List.prefix_of_prefix_length_le (hm.trans hpk) hck (by have := hl'.lt; simp; omega)
        have := hl.same hl' (hm.trans h3) hmc'
        subst this
        have := pre_len_eq (hi.trans hck) hk (by simp)
        simp only [List.append_cancel_left_eq, List.cons.injEq, and_true] at this
        exact hj this.symm

/-- The root branch of a clean view has the specified hash. -/
theorem root_hash {V : View} {M : Spec.Mapping} (Lo : Loc V) (hC : Clean H V)
    (hM : ∀ a, V (keyNibs a) = if M a = [] then none else some (.leaf (keyNibs a) (M a))) {ch} (hb : Br V [] ch) :
    objHash H (.branch [] ch) = Spec.rootHash H M := by
  have hL : ∀ p : Nibbles, p.length = 40 → V p = none → Spec.leafAt M p = [] := by
    intro p hp hn
    obtain ⟨a, rfl⟩ := keyNibs_surj hp
    rw [leafAt_nibs]
    rw [hM a] at hn
    split at hn
    · assumption
    · simp at hn
  have hL' : ∀ p v, V p = some (.leaf p v) → Spec.leafAt M p = v := by
    intro p v hv
    obtain ⟨a, rfl⟩ := keyNibs_surj (Lo.leaf hv).2.1
    rw [leafAt_nibs]
    rw [hM a] at hv
    split at hv
    · simp at hv
    · simpa using hv
  unfold Spec.rootHash
  have := kids_branch Lo hC hL (p := []) (d := 39) (by simp) hb
    (fun c p' o a b e f g h => top_link Lo hC hL hL' 39 [] c p' o a b e f g h)
  simp only [List.nil_append] at this
  rw [this]
  simp only [objHash, branchBytes_eq]

end Nimiq.Tree
