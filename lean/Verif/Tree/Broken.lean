import Verif.Tree.Discard
import Verif.Tree.Interrupt
/-!
# C103: a deletion that is interrupted breaks later puts
-/
namespace Nimiq.Tree.Generic

variable {H : Bytes → Hash32}

/-- The only entry that begins with a digit hangs directly on the root. -/
theorem only_child {w : World} {M : Spec.Mapping} (I : TreeInv H w M) {a : Addr} (ha : M a ≠ [])
    (honly : ∀ c, M c ≠ [] → (Spec.nibbles c).head? = (Spec.nibbles a).head? → c = a) {ch : Nib → Child}
    (hb : w.view [] = some (.branch [] ch)) : ∃ i t h, keyNibs a = i :: t ∧ ch i = ⟨i :: t, h, true⟩ := by
  obtain ⟨i, t, hit⟩ : ∃ i t, keyNibs a = i :: t := by
    cases h : keyNibs a with
    | nil => exact absurd h (keyNibs_ne_nil a)
    | cons i t => exact ⟨i, t, rfl⟩
  have he : (ch i).exist = true := (I.slot_iff hb i).mpr ⟨a, ha, by rw [← keyNibs_eq, hit]; exact ⟨t, rfl⟩⟩
  refine ⟨i, t, (ch i).hash, hit, ?_⟩
  obtain ⟨⟨s, hs⟩, hne⟩ := I.loc.child hb he
  rw [List.nil_append] at hne
  have hd : ∀ x, M x ≠ [] → (ch i).suffix <+: Spec.nibbles x → x = a := by
    intro x hx hp
    refine honly x hx ?_
    rw [hs] at hp
    obtain ⟨r, hr⟩ := hp
    rw [← hr, ← keyNibs_eq, hit]; rfl
  have hsuf : (ch i).suffix = keyNibs a := by
    cases ho : w.view (ch i).suffix with
    | none => exact absurd ho hne
    | some o =>
      cases o with
      | leaf k u =>
        obtain ⟨rfl, h2, x, h3, h4⟩ := (I.leaf_iff _ _ _).mp ho
        rw [h3, hd x (by rw [h4]; exact h2) (by rw [h3]; exact List.prefix_refl _), ← keyNibs_eq]
      | branch k c =>
        rcases (I.branch_iff _).mp ⟨k, c, ho⟩ with h | ⟨x, y, j, l, hx, hy, hjl, h3, h4⟩
        · rw [hs] at h; cases h
        · exfalso
          have e1 := hd x hx ((List.prefix_append _ _).trans h3)
          have e2 := hd y hy ((List.prefix_append _ _).trans h4)
          rw [e1] at h3
          rw [e2] at h4
          have := pre_len_eq h3 h4 (by simp)
          simp only [List.append_cancel_left_eq, List.cons.injEq, and_true] at this
          exact hjl this
  rw [hit] at hsuf
  cases hc : ch i with
  | mk s h e => rw [hc] at hsuf he; simp only at hsuf he; subst hsuf; subst he; rfl

/-- **C103 is violated**, deletions: from any tree in which `a` is the only entry that begins with its first hex digit, there is a
point at which the store can interrupt the deletion of `a` such that afterwards `PutEntry` of any other key that begins with
this digit panics. -/
theorem C103_delete_violated (hH : ∀ x, H x ≠ zeroHash) (puts : List (Addr × Bytes)) (a b : Addr) (u : Bytes)
    (ha : Spec.final puts a ≠ []) (honly : ∀ c, Spec.final puts c ≠ [] → (Spec.nibbles c).head? = (Spec.nibbles a).head? → c = a)
    (hu : u ≠ []) (hab : a ≠ b) (hf : (Spec.nibbles a).head? = (Spec.nibbles b).head?) :
    ∃ w, Tree.runPuts H puts newWorld = some w ∧ (∃ r, Tree.putEntry H b u w = some r) ∧
      ∃ s ∈ interruptions H a [] w, Tree.putEntry H b u s = none := by
  obtain ⟨w, h1, G⟩ := reach (H := H) puts
  obtain ⟨r, w', g', h2, h3, -, -⟩ := G.put a []
  obtain ⟨r', w'', -, -, h3', -⟩ := G.put b u
  refine ⟨w, h1, ⟨_, h3'⟩, ?_⟩
  obtain ⟨m, hm⟩ := G.mem
  obtain ⟨ch, hb⟩ := G.inv.loc.root
  obtain ⟨p0, hp0, hh0⟩ := G.inv.wf.r.get hb
  obtain ⟨i, t, h0, hit, hi⟩ := only_child G.inv ha honly hb
  have hmap := G.inv.map a
  rw [if_neg ha] at hmap
  obtain ⟨pa, hpa, hha⟩ := G.inv.wf.r.get hmap
  have hget : ∀ k, w.store.get k = mget m k := fun k => by rw [hm]; rfl
  rw [hget] at hp0 hpa
  -- the state after the leaf was deleted
  refine ⟨⟨w.heap, w.next, .mem (mdel m (keyNibs a))⟩, ?_, ?_⟩
  · rw [interruptions, h2]
    obtain ⟨c, g1, e1, e2⟩ := bind_inv h2
    refine (Adds.bind (Adds.hashes _ _) fun _ => .pure _) _ _ _ e2 |>.subset ?_
    obtain ⟨n, g2, e3, e4⟩ := bind_inv e1
    have ht : (traced w).st.nodes = m ∧ (traced w).heap = w.heap ∧ (traced w).next = w.next := by
      simp only [traced, hm, and_self]
    simp only [tracing, Option.some.injEq, Prod.mk.injEq, ht.1, hpa] at e3
    obtain ⟨rfl, rfl⟩ := e3
    obtain ⟨o, g3, e5, e6⟩ := bind_inv e4
    simp only [deref, Option.some.injEq, Prod.mk.injEq, ht.2.1, hha] at e5
    obtain ⟨rfl, rfl⟩ := e5
    simp only [if_neg ha] at e6
    obtain ⟨_, g4, e7, e8⟩ := bind_inv e6
    obtain ⟨-, rfl⟩ := pure_inv e8
    have hpre0 : ¬ ¬ prefixOf ([] : Nibbles) (keyNibs a) = true := by simp [prefixOf]
    rw [maxDepth, update, if_neg hpre0, if_neg (Ne.symm (keyNibs_ne_nil a))] at e7
    obtain ⟨n, g5, e9, e10⟩ := bind_inv e7
    simp only [tracing, Option.some.injEq, Prod.mk.injEq, hp0] at e9
    obtain ⟨rfl, rfl⟩ := e9
    obtain ⟨⟨npfx, ch'⟩, g6, e11, e12⟩ := bind_inv e10
    obtain ⟨rfl, e13⟩ := asBranch_inv e11
    simp only [ht.2.1, hh0, NodeObj.branch.injEq] at e13
    obtain ⟨rfl, rfl⟩ := e13
    simp only [List.length_nil, List.drop_zero, List.nil_append] at e12
    rw [hit] at e12
    simp only [hi, if_true] at e12
    rw [← hit, update, if_neg (by rw [prefixOf_iff]; exact fun h => h (List.prefix_refl _)), if_pos rfl, if_pos List.length_nil] at e12
    obtain ⟨_, g7, e14, e15⟩ := bind_inv e12
    refine (Adds.prune _ _ _ _ _ e15).subset ?_
    simp only [tracing, Option.some.injEq, Prod.mk.injEq] at e14
    rw [← e14.2]
    simp [ht.2.1, ht.2.2]
  · refine Tree.orphan_panics (st := mdel m (keyNibs a)) (p0 := p0) (ch := ch) hu hab hf rfl ?_ ?_ ?_ (G.inv.wf.alloc (by rw [hget]; exact hp0)) hh0 hit hi ?_
    · rw [mget_mdel, if_neg (Ne.symm (keyNibs_ne_nil a))]; exact hp0
    · rw [mget_mdel, if_pos rfl]
    · rw [mget_mdel, if_neg (fun e => hab (keyNibs_inj e).symm)]
      have hmb := G.inv.map b
      have : Spec.final puts b = [] := by
        by_contra hne
        exact hab (honly b hne hf.symm).symm
      rw [if_pos this] at hmb
      rw [← hget]
      exact G.inv.wf.r.get_none hmb
    · rintro j - ⟨h4, h5⟩
      have hl := G.inv.clean [] ch j hb h4
      have ht := (G.inv.loc.child hb h4).2
      cases ho : w.view ([] ++ (ch j).suffix) with
      | none => exact ht ho
      | some o =>
        have := hl o ho
        rw [h5] at this
        cases o <;> exact hH _ this.symm

/-- A tree with one entry, and another key that begins with the same digit. -/
example : Spec.final [(exA, [1])] exA ≠ [] ∧ (∀ c, Spec.final [(exA, [1])] c ≠ [] → c = exA) ∧ exA ≠ exB ∧
    (Spec.nibbles exA).head? = (Spec.nibbles exB).head? := by
  refine ⟨by simp [Spec.final], fun c hc => ?_, by decide, by decide⟩
  by_contra h
  exact hc (by simp [Spec.final, Ne.symm h])

end Nimiq.Tree.Generic
