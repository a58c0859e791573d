import Verif.Tree.Update
/-!
# `updateHashes` on views
-/
namespace Nimiq.Tree

variable {H : Bytes → Hash32}

/-- The cached hash of child `i` of the branch at `k` is the hash of the node it refers to. -/
def LinkOK (H : Bytes → Hash32) (V : View) (k : Nibbles) (ch : Nib → Child) (i : Nib) : Prop :=
  ∀ o, V (k ++ (ch i).suffix) = some o → (ch i).hash = objHash H o

/-- All cached hashes at or below `c` are right. -/
def CleanUnder (H : Bytes → Hash32) (V : View) (c : Nibbles) : Prop :=
  ∀ k ch i, c <+: k → Br V k ch → (ch i).exist = true → LinkOK H V k ch i

/-- All cached hashes at or below `c` are zero, or right with only right hashes below. -/
def SemiUnder (H : Bytes → Hash32) (V : View) (c : Nibbles) : Prop :=
  ∀ k ch i, c <+: k → Br V k ch → (ch i).exist = true →
    (ch i).hash = zeroHash ∨ (LinkOK H V k ch i ∧ CleanUnder H V (k ++ (ch i).suffix))

theorem CleanUnder.congr {V V' c} (h : CleanUnder H V c) (he : ∀ k, c <+: k → V' k = V k) : CleanUnder H V' c := by
  intro k ch i hk hb hi o ho
  have hb' : Br V k ch := by unfold Br at *; rw [← he k hk]; exact hb
  exact h k ch i hk hb' hi o (by rw [← he _ (hk.trans (List.prefix_append _ _))]; exact ho)

theorem CleanUnder.mono {V c c'} (h : CleanUnder H V c) (hc : c <+: c') : CleanUnder H V c' :=
  fun k ch i hk => h k ch i (hc.trans hk)

theorem SemiUnder.congr {V V' c} (h : SemiUnder H V c) (he : ∀ k, c <+: k → V' k = V k) : SemiUnder H V' c := by
  intro k ch i hk hb hi
  have hb' : Br V k ch := by unfold Br at *; rw [← he k hk]; exact hb
  rcases h k ch i hk hb' hi with h1 | ⟨h1, h2⟩
  · exact .inl h1
  · refine .inr ⟨?_, h2.congr (fun k' hk' => he k' ((hk.trans (List.prefix_append _ _)).trans hk'))⟩
    intro o ho
    exact h1 o (by rw [← he _ (hk.trans (List.prefix_append _ _))]; exact ho)

theorem SemiUnder.mono {V c c'} (h : SemiUnder H V c) (hc : c <+: c') : SemiUnder H V c' :=
  fun k ch i hk => h k ch i (hc.trans hk)

/-- What the recursive call has to provide. -/
def RecOK (H : Bytes → Hash32) (rec : Nibbles → View → Option (Hash32 × View)) (len : Nat) : Prop :=
  ∀ (V : View) (c : Nibbles), Loc V → V c ≠ none → SemiUnder H V c → len < c.length →
    ∃ h V', rec c V = some (h, V') ∧ Shape V V' ∧ (∀ k, ¬ c <+: k → V' k = V k) ∧ CleanUnder H V' c ∧
      ∃ o, V' c = some o ∧ h = objHash H o

theorem append_not_pre {k : Nibbles} {i : Nib} {s : Nibbles} : ¬ k ++ i :: s <+: k := by
  intro h; have := h.length_le; simp at this; omega

theorem sibling {p : Nibbles} {i j : Nib} {s t k : Nibbles} (h : i ≠ j) (h1 : p ++ i :: s <+: k) :
    ¬ p ++ j :: t <+: k := by
  intro h2
  have a : p ++ [i] <+: k := (snoc_pre_cons.mpr rfl : p ++ [i] <+: p ++ i :: s).trans h1
  have b : p ++ [j] <+: k := (snoc_pre_cons.mpr rfl : p ++ [j] <+: p ++ j :: t).trans h2
  have := pre_len_eq a b (by simp)
  simp only [List.append_cancel_left_eq, List.cons.injEq, and_true] at this
  exact h this

theorem hashLoop_spec {rec} {p : Nibbles} (hrec : RecOK H rec p.length) : ∀ (is : List Nib) (V : View) (ch : Nib → Child),
    is.Nodup → Loc V → Br V p ch →
    (∀ i ∈ is, (ch i).exist = true → SemiUnder H V (p ++ (ch i).suffix) ∧
      ((ch i).hash = zeroHash ∨ (LinkOK H V p ch i ∧ CleanUnder H V (p ++ (ch i).suffix)))) →
    (∀ i, i ∉ is → (ch i).exist = true → LinkOK H V p ch i ∧ CleanUnder H V (p ++ (ch i).suffix)) →
    ∃ V' ch', hashLoopV rec p is V = some V' ∧ Shape V V' ∧ (∀ k, ¬ p <+: k → V' k = V k) ∧ Br V' p ch' ∧
      ∀ i, (ch' i).exist = true → LinkOK H V' p ch' i ∧ CleanUnder H V' (p ++ (ch' i).suffix) := by
  intro is
  induction is with
  | nil =>
    intro V ch _ L hb _ h2
    exact ⟨V, ch, rfl, Shape.refl V, fun _ _ => rfl, hb, fun i hi => h2 i (by simp) hi⟩
  | cons i is ih =>
    intro V ch hnd L hb h1 h2
    obtain ⟨hni, hnd⟩ := List.nodup_cons.mp hnd
    have hb' : V p = some (.branch p ch) := hb
    simp only [hashLoopV, hb']
    by_cases hc : (ch i).exist = true ∧ (ch i).hash = zeroHash
    · rw [if_pos hc]
      obtain ⟨⟨s, hs⟩, htn⟩ := L.child hb hc.1
      obtain ⟨h, V1, e1, sh1, off1, cl1, o, ho, rfl⟩ := hrec V (p ++ (ch i).suffix) L htn (h1 i (by simp) hc.1).1
        (by rw [hs]; simp)
      have hp1 : V1 p = some (.branch p ch) := by rw [off1 p (by rw [hs]; exact append_not_pre)]; exact hb
      simp only [e1, hp1]
      generalize hch1 : setChild ch i { ch i with hash := objHash H o } = ch1
      have c1i : ch1 i = { ch i with hash := objHash H o } := by rw [← hch1, setChild_self]
      have c1n : ∀ j, j ≠ i → ch1 j = ch j := fun j hj => by rw [← hch1, setChild_ne _ _ hj]
      have sh2 : Shape V1 (vset V1 p (.branch p ch1)) := by
        refine vset_shape hp1 ⟨rfl, fun j => ?_⟩
        by_cases hj : j = i
        · subst hj; simp [c1i]
        · simp [c1n j hj]
      have b2 : Br (vset V1 p (.branch p ch1)) p ch1 := by simp [Br]
      -- below children other than i nothing changed
      have same : ∀ j, j ≠ i → (ch j).exist = true → ∀ k, p ++ (ch j).suffix <+: k →
          vset V1 p (.branch p ch1) k = V k := by
        intro j hj hje k hk
        obtain ⟨⟨t, ht⟩, _⟩ := L.child hb hje
        rw [ht] at hk
        rw [vset_ne, off1]
        · rw [hs]; exact sibling hj hk
        · rintro rfl; exact append_not_pre hk
      have samei : ∀ k, p ++ (ch i).suffix <+: k → vset V1 p (.branch p ch1) k = V1 k := by
        intro k hk
        rw [vset_ne]
        rintro rfl; rw [hs] at hk; exact append_not_pre hk
      have := ih (vset V1 p (.branch p ch1)) ch1 hnd ((L.shape sh1).shape sh2) b2 ?_ ?_
      · obtain ⟨V', ch', f1, f2, f3, f4, f5⟩ := this
        refine ⟨V', ch', f1, (sh1.trans sh2).trans f2, ?_, f4, f5⟩
        intro k hk
        rw [f3 k hk, vset_ne _ _ _ (by rintro rfl; exact hk (List.prefix_refl _)), off1]
        exact fun h => hk ((List.prefix_append _ _).trans h)
      · intro j hj hje
        have hji : j ≠ i := by rintro rfl; exact hni hj
        rw [c1n j hji] at hje
        obtain ⟨g1, g2⟩ := h1 j (by simp [hj]) hje
        rw [c1n j hji]
        refine ⟨g1.congr (same j hji hje), ?_⟩
        rcases g2 with g2 | ⟨g2, g3⟩
        · exact .inl g2
        · refine .inr ⟨?_, g3.congr (same j hji hje)⟩
          intro o' ho'
          rw [c1n j hji] at ho' ⊢
          rw [same j hji hje _ (List.prefix_refl _)] at ho'
          exact g2 o' ho'
      · intro j hj hje
        by_cases hji : j = i
        · subst hji
          constructor
          · intro o' ho'
            rw [c1i] at ho' ⊢
            simp only at ho' ⊢
            rw [samei _ (List.prefix_refl _), ho] at ho'
            simp only [Option.some.injEq] at ho'
            rw [ho']
          · rw [c1i]; exact cl1.congr samei
        · rw [c1n j hji] at hje
          obtain ⟨g1, g2⟩ := h2 j (by simp [hji, hj]) hje
          constructor
          · intro o' ho'
            rw [c1n j hji] at ho' ⊢
            rw [same j hji hje _ (List.prefix_refl _)] at ho'
            exact g1 o' ho'
          · rw [c1n j hji]; exact g2.congr (same j hji hje)
    · rw [if_neg hc]
      refine ih V ch hnd L hb (fun j hj => h1 j (by simp [hj])) ?_
      intro j hj hje
      by_cases hji : j = i
      · subst hji
        rcases (h1 j (by simp) hje).2 with g | g
        · exact absurd ⟨hje, g⟩ hc
        · exact g
      · exact h2 j (by simp [hji, hj]) hje

theorem updH_spec : ∀ (fuel : Nat) (V : View) (p : Nibbles), Loc V → V p ≠ none → SemiUnder H V p →
    40 < fuel + p.length → ∃ h V', updHV H fuel p V = some (h, V') ∧ Shape V V' ∧ (∀ k, ¬ p <+: k → V' k = V k) ∧
      CleanUnder H V' p ∧ ∃ o, V' p = some o ∧ h = objHash H o := by
  intro fuel
  induction fuel with
  | zero => intro V p L hp _ hl; have := L.len_le hp; omega
  | succ fuel ih =>
    intro V p L hp hs hl
    unfold updHV
    rcases L.node_cases hp with ⟨v, hv, h40, _⟩ | ⟨ch, hb, _⟩
    · simp only [hv]
      refine ⟨_, V, rfl, Shape.refl V, fun _ _ => rfl, ?_, _, hv, rfl⟩
      intro k ch i hk hb hi
      have hk40 := (L.branch hb).2
      have := hk.length_le
      omega
    · have hb' : V p = some (.branch p ch) := hb
      simp only [hb']
      have hrec : RecOK H (updHV H fuel) p.length := by
        intro V c L hc hs hlc
        exact ih V c L hc hs (by omega)
      obtain ⟨V', ch', e1, e2, e3, e4, e5⟩ := hashLoop_spec hrec (List.finRange 16) V ch finRange_nodup L hb
        (fun i _ hi => ⟨hs.mono (List.prefix_append _ _), hs p ch i (List.prefix_refl _) hb hi⟩)
        (fun i hi => absurd (List.mem_finRange i) hi)
      have e4' : V' p = some (.branch p ch') := e4
      simp only [e1, e4', if_true]
      refine ⟨_, V', rfl, e2, e3, ?_, _, e4', rfl⟩
      have L' := L.shape e2
      intro k chk i hk hbk hi
      by_cases hkp : k = p
      · subst hkp
        have := e4.unique hbk
        subst this
        exact (e5 i hi).1
      · have hlt : p.length < k.length := by
          rcases Nat.lt_or_ge p.length k.length with h | h
          · exact h
          · exact absurd (hk.eq_of_length (Nat.le_antisymm hk.length_le h)).symm hkp
        obtain ⟨c, hlc, hck⟩ := e4.route L' (by rw [hbk]; simp) hk hlt
        obtain ⟨ch'', j, s, hb'', he'', hs'', rfl⟩ := hlc
        have := e4.unique hb''
        subst this
        have := (e5 j he'').2
        rw [hs''] at this
        exact this k chk i hck hbk hi

/-- All cached hashes are right. -/
def Clean (H : Bytes → Hash32) (V : View) : Prop :=
  ∀ k ch i, Br V k ch → (ch i).exist = true → LinkOK H V k ch i

theorem Clean.under {V} (h : Clean H V) (c) : CleanUnder H V c := fun k ch i _ => h k ch i

theorem semi_of_clean {V} (h : Clean H V) (c) : SemiUnder H V c :=
  fun k ch i _ hb hi => .inr ⟨h k ch i hb hi, h.under _⟩

theorem semi_of_upd {q value V V'} (h : Clean H V) (u : Upd q value V V') : SemiUnder H V' [] := by
  have L := u.loc
  intro k ch i _ hb hi
  obtain ⟨⟨s, hs⟩, _⟩ := L.child hb hi
  have key : (∃ ch0, Br V k ch0 ∧ ch0 i = ch i) → ¬ k ++ [i] <+: q →
      LinkOK H V' k ch i ∧ CleanUnder H V' (k ++ (ch i).suffix) := by
    rintro ⟨ch0, hb0, he0⟩ hn
    have hoff : ∀ k', k ++ (ch i).suffix <+: k' → V' k' = V k' := by
      intro k' hk'
      apply u.off
      intro hq
      rw [hs] at hk'
      exact hn (((snoc_pre_cons.mpr rfl : k ++ [i] <+: k ++ i :: s).trans hk').trans hq)
    refine ⟨?_, (h.under _).congr hoff⟩
    intro o ho
    rw [hoff _ (List.prefix_refl _)] at ho
    have := h k ch0 i hb0 (by rw [he0]; exact hi)
    unfold LinkOK at this
    rw [he0] at this
    exact this o ho
  by_cases hk : k <+: q
  · by_cases hn : k ++ [i] <+: q
    · exact .inl ((u.path hb hk hi).1 hn)
    · rcases (u.path hb hk hi).2 hn with h1 | h1
      · exact .inl h1
      · exact .inr (key h1 hn)
  · refine .inr (key ⟨ch, ?_, rfl⟩ (fun h => hk ((List.prefix_append _ _).trans h)))
    unfold Br at *; rw [← u.off k hk]; exact hb

end Nimiq.Tree
