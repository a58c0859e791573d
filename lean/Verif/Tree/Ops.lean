import Verif.Tree.Canon
/-!
# The public operations and the reachable states
-/
namespace Nimiq.Tree

variable {H : Bytes → Hash32}

/-- The tree in world `w` is well-formed, has correct cached hashes and holds the mapping `M`. -/
structure TreeInv (H : Bytes → Hash32) (w : World) (M : Spec.Mapping) : Prop where
  wf : WF w
  loc : Loc w.view
  clean : Clean H w.view
  map : ∀ a, w.view (keyNibs a) = if M a = [] then none else some (.leaf (keyNibs a) (M a))

theorem WF.r {w} (h : WF w) : R w w.view := ⟨h, fun _ => rfl⟩
theorem R.view_eq {w V} (h : R w V) : w.view = V := funext h.view

theorem newWorld_view : newWorld.view = fun k => if k = [] then some (.branch [] fun _ => Child.zero) else none := by
  funext k
  by_cases h : k = []
  · subst h; rfl
  · simp [World.view, newWorld, Store.get, mget, h, Ne.symm h]

theorem newWorld_inv : TreeInv H newWorld (fun _ => []) := by
  have hg : ∀ k p, newWorld.store.get k = some p → k = [] ∧ p = 0 := by
    intro k p h
    simp only [newWorld, Store.get, mget] at h
    by_cases hk : k = []
    · subst hk; simp at h; exact ⟨rfl, h.symm⟩
    · simp [Ne.symm hk] at h
  refine ⟨⟨?_, ?_, ?_⟩, ?_, ?_, ?_⟩
  · simp [newWorld, Store.Usable, NodupKeys]
  · intro k p h; rw [(hg k p h).2]; exact Nat.one_pos
  · intro k k' p h h'; rw [(hg k p h).1, (hg k' p h').1]
  · rw [newWorld_view]
    refine ⟨⟨fun _ => Child.zero, by simp [Br]⟩, ?_, ?_, ?_, ?_, ?_⟩
    · intro k p v h; split at h <;> simp at h
    · intro k p ch h
      split at h
      · rename_i hk; simp at h; subst hk; exact ⟨h.1, by simp⟩
      · simp at h
    · intro k ch i h hi
      unfold Br at h
      simp only at h
      split at h
      · simp only [Option.some.injEq, NodeObj.branch.injEq] at h
        rw [← h.2] at hi; simp [Child.zero] at hi
      · simp at h
    · intro k ch h hk; simp [Br, hk] at h
    · intro c h hc; simp [hc] at h
  · rw [newWorld_view]
    intro k ch i h hi
    unfold Br at h
    simp only at h
    split at h
    · simp only [Option.some.injEq, NodeObj.branch.injEq] at h
      rw [← h.2] at hi; simp [Child.zero] at hi
    · simp at h
  · intro a
    rw [newWorld_view]
    have : keyNibs a ≠ [] := by intro h; have := keyNibs_length a; rw [h] at this; simp at this
    simp [this]

/-- Updating all hashes of a semi-clean tree. -/
theorem updateHashes_spec {w V} (h : R w V) (L : Loc V) (hs : SemiUnder H V []) :
    ∃ x w', updateHashes H maxDepth [] w = some (x, w') ∧ R w' w'.view ∧ Shape V w'.view ∧ Clean H w'.view := by
  have hroot : V [] ≠ none := by obtain ⟨ch, hb⟩ := L.root; rw [hb]; simp
  obtain ⟨x, V', e1, e2, e3, e4, o, e5, e6⟩ := updH_spec maxDepth V [] L hroot hs (by simp [maxDepth])
  obtain ⟨w', f1, f2, f3⟩ := sim_updH h e1
  have := f2.view_eq
  refine ⟨x, w', f1, ?_, ?_, ?_⟩
  · rw [this]; exact f2
  · rw [this]; exact e2
  · rw [this]; intro k ch i hb hi; exact e4 k ch i List.nil_prefix hb hi

theorem set_same {M : Spec.Mapping} {a v} (h : M a = v) : Spec.set M a v = M := by
  funext b; unfold Spec.set; split
  · rename_i e; rw [e, h]
  · rfl

theorem putEntry_spec {w : World} {M : Spec.Mapping} (I : TreeInv H w M) (a : Addr) (v : Bytes) :
    ∃ b w', putEntry H a v w = some (b, w') ∧ TreeInv H w' (Spec.set M a v) ∧ (b = true ↔ M a ≠ v) := by
  have hr := I.wf.r
  have hlen := keyNibs_length a
  -- when nothing changes
  have noop : M a = v → updateEntry a v w = some (false, w) →
      ∃ b w', putEntry H a v w = some (b, w') ∧ TreeInv H w' (Spec.set M a v) ∧ (b = true ↔ M a ≠ v) := by
    intro hv hu
    obtain ⟨x, w', e1, e2, e3, e4⟩ := updateHashes_spec hr I.loc (semi_of_clean I.clean [])
    refine ⟨false, w', ?_, ⟨e2.toWF, I.loc.shape e3, e4, ?_⟩, by simp [hv]⟩
    · simp only [putEntry, TM.bind_eq, hu, e1]; rfl
    · intro b
      rw [set_same hv]
      have := I.map b
      split at this
      · rename_i h; rw [if_pos h]; exact e3.none this
      · rename_i h; rw [if_neg h]; exact e3.leaf this
  -- when the entry changes
  have change : M a ≠ v → (∀ w', update maxDepth [] (keyNibs a) v [] w = some ((), w') → updateEntry a v w = some (true, w')) →
      ∃ b w', putEntry H a v w = some (b, w') ∧ TreeInv H w' (Spec.set M a v) ∧ (b = true ↔ M a ≠ v) := by
    intro hv hu
    have hdel : v = [] → w.view (keyNibs a) ≠ none := by
      rintro rfl
      rw [I.map a, if_neg hv]; simp
    have hroot : w.view [] ≠ none := by obtain ⟨ch, hb⟩ := I.loc.root; rw [hb]; simp
    obtain ⟨V', e1, e2⟩ := upd_spec I.loc (value := v) hlen hdel maxDepth [] [] (by simp [maxDepth]) hroot rfl (.inl rfl)
    obtain ⟨w1, f1, f2⟩ := sim_upd (ps := []) (ks := []) hr trivial e1
    obtain ⟨x, w', g1, g2, g3, g4⟩ := updateHashes_spec f2 e2.loc (semi_of_upd I.clean e2)
    refine ⟨true, w', ?_, ⟨g2.toWF, e2.loc.shape g3, g4, ?_⟩, by simp [hv]⟩
    · simp only [putEntry, TM.bind_eq, hu w1 f1, g1]; rfl
    · intro b
      by_cases hb : b = a
      · subst hb
        have := e2.entry
        simp only [Spec.set, if_true]
        split at this
        · rename_i h; rw [if_pos h]; exact g3.none this
        · rename_i h; rw [if_neg h]; exact g3.leaf this
      · have hnp : ¬ keyNibs b <+: keyNibs a := fun h =>
          hb (keyNibs_inj (h.eq_of_length (by rw [keyNibs_length, keyNibs_length])))
        have := e2.off _ hnp
        rw [I.map b] at this
        simp only [Spec.set, if_neg hb]
        split at this
        · rename_i h; rw [if_pos h]; exact g3.none this
        · rename_i h; rw [if_neg h]; exact g3.leaf this
  have hm := I.map a
  by_cases hM : M a = []
  · rw [if_pos hM] at hm
    have hg := hr.get_none hm
    by_cases hv : v = []
    · apply noop (by rw [hM, hv])
      simp [updateEntry, TM.bind_eq, getNode, hg, hv, Pure.pure, TM.pure]
    · have hvl : v.length ≠ 0 := fun h => hv (List.length_eq_zero_iff.mp h)
      apply change (by rw [hM]; exact Ne.symm hv)
      intro w' hw
      simp only [updateEntry, TM.bind_eq, getNode, hg, hvl, if_false, hw]
      rfl
  · rw [if_neg hM] at hm
    obtain ⟨p, hg, hh⟩ := hr.get hm
    by_cases hv : M a = v
    · apply noop hv
      simp only [updateEntry, TM.bind_eq, getNode, hg, deref, hh, hv, if_true]
      rfl
    · apply change hv
      intro w' hw
      simp only [updateEntry, TM.bind_eq, getNode, hg, deref, hh, hv, if_false, hw]
      rfl

theorem getEntry_spec {w : World} {M : Spec.Mapping} (I : TreeInv H w M) (a : Addr) :
    getEntry a w = some (if M a = [] then none else some (M a), w) := by
  have hr := I.wf.r
  have hm := I.map a
  by_cases hM : M a = []
  · rw [if_pos hM] at hm
    simp only [getEntry, TM.bind_eq, getNode, hr.get_none hm, hM, if_true]
    rfl
  · rw [if_neg hM] at hm
    obtain ⟨p, hg, hh⟩ := hr.get hm
    simp only [getEntry, TM.bind_eq, getNode, hg, deref, hh, hM, if_false]
    rfl

theorem hash_spec {w : World} {M : Spec.Mapping} (I : TreeInv H w M) :
    hash H w = some (Spec.rootHash H M, w) := by
  have hr := I.wf.r
  obtain ⟨ch, hb⟩ := I.loc.root
  obtain ⟨p, hg, hh⟩ := hr.get hb
  rw [← root_hash I.loc I.clean I.map hb]
  simp only [hash, TM.bind_eq, getNode, hg, asBranch_eq hr hg hb]
  rfl

/-! ## Overlays -/

theorem push_inv {w : World} {M : Spec.Mapping} (I : TreeInv H w M) :
    TreeInv H { w with store := .overlay w.store (some []) } M := by
  have hg : ∀ k, (Store.overlay w.store (some [])).get k = w.store.get k := by
    intro k; simp [Store.get, mget]
  have hv : World.view { w with store := .overlay w.store (some []) } = w.view := by
    funext k; simp only [World.view, hg]
  refine ⟨⟨⟨I.wf.usable, _, rfl, by simp [NodupKeys]⟩, ?_, ?_⟩, ?_, ?_, ?_⟩
  · intro k p h; simp only [hg] at h; exact I.wf.alloc h
  · intro k k' p h h'; simp only [hg] at h h'; exact I.wf.inj h h'
  · rw [hv]; exact I.loc
  · rw [hv]; exact I.clean
  · rw [hv]; exact I.map

theorem mget_nodup {V} {m : GoMap V} (h : NodupKeys m) {k v} : mget m k = some v ↔ (k, v) ∈ m := by
  induction m with
  | nil => simp [mget]
  | cons e m ih =>
    unfold NodupKeys at h
    rw [List.map_cons, List.nodup_cons] at h
    have ih := ih h.2
    unfold mget at *
    rw [List.find?_cons]
    by_cases he : e.1 = k
    · simp only [he, decide_true, Option.map_some, Option.some.injEq, List.mem_cons]
      constructor
      · rintro rfl; left; rw [← he]
      · rintro (h1 | h1)
        · rw [← h1]
        · exfalso; apply h.1; rw [he]; exact List.mem_map.mpr ⟨(k, v), h1, rfl⟩
    · simp only [he, decide_false, List.mem_cons]
      rw [ih]
      constructor
      · exact .inr
      · rintro (h1 | h1)
        · exact absurd (by rw [← h1]) he
        · exact h1

theorem mget_none {V} {m : GoMap V} {k} : mget m k = none ↔ ∀ v, (k, v) ∉ m := by
  unfold mget
  simp only [Option.map_eq_none_iff, List.find?_eq_none, decide_eq_true_eq]
  constructor
  · intro h v hm; exact h _ hm rfl
  · rintro h ⟨k', v⟩ hm rfl; exact h v hm

theorem mget_perm {V} {m m' : GoMap V} (h : NodupKeys m) (hp : m'.Perm m) (k : Nibbles) : mget m' k = mget m k := by
  have h' : NodupKeys m' := (hp.map (fun e : Nibbles × V => e.1)).nodup_iff.mpr h
  cases hk : mget m k with
  | none =>
    rw [mget_none] at hk ⊢
    intro v hm; exact hk v (hp.mem_iff.mp hm)
  | some v =>
    rw [mget_nodup h] at hk
    rw [mget_nodup h']; exact hp.mem_iff.mpr hk

/-- The loop of `Flush`, for any order without duplicates. -/
theorem flushLoop_spec : ∀ (order : List (Nibbles × Option Ptr)) (lower : Store) (d : GoMap (Option Ptr)),
    lower.Usable → NodupKeys order → ∃ lower' d', flushLoop order lower d = some (lower', d') ∧ lower'.Usable ∧
      (∀ k, lower'.get k = (mget order k).getD (lower.get k)) ∧ d' = d.filter (fun e => e.1 ∉ order.map (·.1)) := by
  intro order
  induction order with
  | nil =>
    intro lower d hu _
    exact ⟨lower, d, rfl, hu, fun k => by simp [mget], by rw [List.filter_eq_self.mpr]; simp⟩
  | cons e order ih =>
    obtain ⟨k, n⟩ := e
    intro lower d hu hn
    unfold NodupKeys at hn
    rw [List.map_cons, List.nodup_cons] at hn
    have tail : ∀ (lower1 : Store), lower1.Usable → (∀ q, lower1.get q = if q = k then n else lower.get q) →
        ∃ lower' d', flushLoop order lower1 (mdel d k) = some (lower', d') ∧ lower'.Usable ∧
          (∀ q, lower'.get q = (mget ((k, n) :: order) q).getD (lower.get q)) ∧
          d' = d.filter (fun e => e.1 ∉ ((k, n) :: order).map (·.1)) := by
      intro lower1 hu1 hg1
      obtain ⟨lower', d', e1, e2, e3, e4⟩ := ih lower1 (mdel d k) hu1 hn.2
      refine ⟨lower', d', e1, e2, ?_, ?_⟩
      · intro q
        rw [e3 q, hg1 q]
        unfold mget
        rw [List.find?_cons]
        by_cases hq : k = q
        · subst hq
          have : order.find? (fun e => decide (e.1 = k)) = none := by
            rw [List.find?_eq_none]
            intro e he hd
            apply hn.1
            simp only [decide_eq_true_eq] at hd
            rw [← hd]; exact List.mem_map.mpr ⟨e, he, rfl⟩
          simp [this]
        · simp [hq, Ne.symm hq]
      · rw [e4, mdel, List.filter_filter]
        apply List.filter_congr
        intro x _
        rw [Bool.eq_iff_iff]
        simp only [Bool.and_eq_true, decide_eq_true_eq, List.map_cons, List.mem_cons, not_or]
        exact and_comm
    cases n with
    | none =>
      obtain ⟨s', h1, h2, h3⟩ := Store.del_spec lower hu k
      obtain ⟨l', d', e1, e2⟩ := tail s' h2 h3
      refine ⟨l', d', ?_, e2⟩
      simp only [flushLoop, h1, Option.bind_eq_bind, Option.bind_some, e1]
    | some p =>
      obtain ⟨s', h1, h2, h3⟩ := Store.put_spec lower hu k p
      obtain ⟨l', d', e1, e2⟩ := tail s' h2 h3
      refine ⟨l', d', ?_, e2⟩
      simp only [flushLoop, h1, Option.bind_eq_bind, Option.bind_some, e1]

/-- `Flush` in any order: the lower store answers as the overlay did, and the overlay is empty. -/
theorem flush_spec {lower : Store} {d : GoMap (Option Ptr)} (hu : lower.Usable) (hd : NodupKeys d)
    {order} (hp : order.Perm d) : ∃ lower', (Store.overlay lower (some d)).flush order = some (.overlay lower' (some [])) ∧
      lower'.Usable ∧ ∀ k, lower'.get k = (Store.overlay lower (some d)).get k := by
  have hn : NodupKeys order := (hp.map (fun e : Nibbles × Option Ptr => e.1)).nodup_iff.mpr hd
  obtain ⟨l', d', e1, e2, e3, e4⟩ := flushLoop_spec order lower d hu hn
  have : d' = [] := by
    rw [e4, List.filter_eq_nil_iff]
    intro e he
    simp only [decide_eq_true_eq, Classical.not_not]
    exact List.mem_map.mpr ⟨e, hp.mem_iff.mpr he, rfl⟩
  subst this
  refine ⟨l', ?_, e2, ?_⟩
  · simp only [Store.flush, e1, Option.bind_eq_bind, Option.bind_some]
    rfl
  · intro k
    rw [e3 k, mget_perm hd hp]
    simp only [Store.get, Option.bind_some]
    cases mget d k <;> rfl

theorem flush_inv {w : World} {M : Spec.Mapping} {lower d order} (I : TreeInv H w M)
    (hw : w.store = .overlay lower (some d)) (hp : order.Perm d) :
    ∃ s', w.store.flush order = some s' ∧ TreeInv H { w with store := s' } M := by
  have hu := I.wf.usable
  rw [hw] at hu
  obtain ⟨h1, d0, h2, h3⟩ := hu
  simp only [Option.some.injEq] at h2
  subst h2
  obtain ⟨l', e1, e2, e3⟩ := flush_spec h1 h3 hp
  refine ⟨_, by rw [hw]; exact e1, ?_⟩
  have hg : ∀ k, (Store.overlay l' (some [])).get k = w.store.get k := by
    intro k; rw [hw, ← e3 k]; simp [Store.get, mget]
  have hv : World.view { w with store := .overlay l' (some []) } = w.view := by
    funext k; simp only [World.view, hg]
  refine ⟨⟨⟨e2, _, rfl, by simp [NodupKeys]⟩, ?_, ?_⟩, ?_, ?_, ?_⟩
  · intro k p h; simp only [hg] at h; exact I.wf.alloc h
  · intro k k' p h h'; simp only [hg] at h h'; exact I.wf.inj h h'
  · rw [hv]; exact I.loc
  · rw [hv]; exact I.clean
  · rw [hv]; exact I.map

end Nimiq.Tree
