import Verif.Tree.Interrupt
/-!
# C106: `GetEntry` concurrently with `PutEntry`

One goroutine calls `PutEntry` again and again while others call `GetEntry` on the same tree; the methods of the store are
synchronised (as with a mutex around a `MemStore`), nothing else is. `GetEntry` makes a single call of the store and reads
the leaf behind the pointer it gets, some time later.
-/
namespace Nimiq.Tree.Generic

variable {H : Bytes → Hash32}

/-! ## The specification -/

/-- The states of the tree at the calls of the store that a sequence of `PutEntry` calls makes (before and after each),
in their order and with the number of `PutEntry` calls that have returned, and finally the state when all have returned. -/
def timeline (H : Bytes → Hash32) : List (Addr × Bytes) → Nat → World → List (Nat × World)
  | [], i, w => [(i, w)]
  | (a, v) :: puts, i, w =>
    match Tree.putEntry H a v w with
    | none => []
    | some (_, w') => (interruptions H a v w).map (fun s => (i, s)) ++ timeline H puts (i + 1) w'

/-- tree.go:25-35 `GetEntry` when `t.Store.GetNode` is called in the state `s` and the node is read in the state `s'`; the
outer `none` is a panic. -/
def getEntryAcross (key : Addr) (s s' : World) : Option (Option Bytes) :=
  match s.store.get (keyNibs key) with
  | none => some none
  | some p =>
    match s'.heap p with
    | .leaf _ v => some (some v)
    | .branch _ _ => none

/-- When nothing happens in between this is `GetEntry`. -/
theorem C106_get_entry (b : Addr) (s : World) : (Tree.getEntry b s).map (·.1) = getEntryAcross b s s := by
  simp only [Tree.getEntry, TM.bind_eq, Tree.getNode, getEntryAcross]
  cases s.store.get (keyNibs b) with
  | none => rfl
  | some p =>
    simp only [TM.bind_eq, Tree.deref]
    cases s.heap p <;> rfl

/-! ## One put -/

theorem Adds.update : ∀ (fuel : Nat) (np pfx : Nibbles) (v : Bytes) (path : List Ptr), Adds (update tracing fuel np pfx v path)
  | 0, _, _, _, _ => .panic
  | fuel + 1, np, pfx, v, path => by
    unfold Generic.update
    split
    · exact .bind (.alloc _) fun _ => .bind (.put _ _) fun _ => .bind (.sliceFrom _ _) fun _ => .bind (.withChild _ _ _) fun _ =>
        .bind (.sliceFrom _ _) fun _ => .bind (.withChild _ _ _) fun _ => .bind (.alloc _) fun _ => .bind (.put _ _) fun _ =>
        .inv _ _
    · split
      · split
        · exact .bind (.del _) fun _ => .prune _ _
        · exact .bind (.alloc _) fun _ => .bind (.put _ _) fun _ => .inv _ _
      · refine .bind (.get _) fun r => ?_
        cases r with
        | none => exact .panic
        | some node =>
          refine .bind (.asBranch _) fun r => ?_
          obtain ⟨npfx, ch⟩ := r
          simp only
          split
          · exact .panic
          · split
            · exact Adds.update fuel _ _ _ _
            · exact .bind (.alloc _) fun _ => .bind (.put _ _) fun _ => .bind (.asBranch _) fun _ => .bind (.sliceFrom _ _) fun _ =>
                .bind (.withChild _ _ _) fun _ => .bind (.write _ _) fun _ => .bind (.put _ _) fun _ => .inv _ _

/-- The first state written down is the one before the call. -/
theorem log_head {a : Addr} {v : Bytes} {w : World} {m r g'} (hm : w.store = .mem m)
    (h : putEntry tracing H a v (traced w) = some (r, g')) : [w] <+: g'.st.log := by
  obtain ⟨c, g1, h1, h2⟩ := bind_inv h
  have q1 : g1.st.log <+: g'.st.log := (Adds.bind (.hashes _ _) fun _ => .pure _) _ _ _ h2
  obtain ⟨n, g2, h3, h4⟩ := bind_inv h1
  have q2 : g2.st.log <+: g1.st.log := by
    have upd : ∀ x, Adds (Generic.update tracing maxDepth [] (keyNibs a) v [] >>= fun _ => (Pure.pure x : GM TState Bool)) :=
      fun x => .bind (.update _ _ _ _ _) fun _ => .pure _
    cases n with
    | none =>
      simp only at h4
      split at h4
      · exact Adds.pure _ _ _ _ h4
      · exact upd _ _ _ _ h4
    | some p =>
      simp only at h4
      obtain ⟨o, g3, h5, h6⟩ := bind_inv h4
      have := Adds.deref p _ _ _ h5
      refine this.trans ?_
      cases o with
      | leaf lp x =>
        simp only at h6
        split at h6
        · exact Adds.pure _ _ _ _ h6
        · exact upd _ _ _ _ h6
      | branch bp bch => exact upd _ _ _ _ h6
  have q3 : [w] <+: g2.st.log := by
    simp only [tracing, Option.some.injEq, Prod.mk.injEq] at h3
    rw [← h3.2]
    show [w] <+: (traced w).st.log ++ [snap (traced w)]
    rw [snap_traced hm]
    exact List.prefix_refl _
  exact q3.trans (q2.trans q1)

/-- Leaves are never changed. -/
structure Keeps (s s' : World) : Prop where
  next : s.next ≤ s'.next
  leaf : ∀ p l x, p < s.next → s.heap p = .leaf l x → s'.heap p = .leaf l x

theorem Keeps.refl (s : World) : Keeps s s := ⟨Nat.le_refl _, fun _ _ _ _ h => h⟩
theorem Keeps.trans {s t u : World} (h1 : Keeps s t) (h2 : Keeps t u) : Keeps s u :=
  ⟨Nat.le_trans h1.next h2.next, fun p l x h h' => h2.leaf p l x (Nat.lt_of_lt_of_le h h1.next) (h1.leaf p l x h h')⟩
theorem Later.keeps {a : Addr} {v : Bytes} {s s' : World} (h : Later a v s s') : Keeps s s' := ⟨h.next, h.leaf⟩

/-- The store holds exactly the mapping `M`. -/
def Shows (M : Spec.Mapping) (s : World) : Prop := ∀ b,
  (∃ p x, s.store.get (keyNibs b) = some p ∧ p < s.next ∧ s.heap p = .leaf (keyNibs b) x ∧ x = M b) ∨
  (s.store.get (keyNibs b) = none ∧ M b = [])

theorem Shows.across {M : Spec.Mapping} {s s' : World} (h : Shows M s) (hk : Keeps s s') (b : Addr) :
    ∃ r, getEntryAcross b s s' = some r ∧ r.getD [] = M b := by
  rcases h b with ⟨p, x, h1, h2, h3, h4⟩ | ⟨h1, h2⟩
  · refine ⟨some x, ?_, h4⟩
    simp only [getEntryAcross, h1, hk.leaf p _ _ h2 h3]
  · exact ⟨none, by simp only [getEntryAcross, h1], by rw [h2]; rfl⟩

theorem Mid.new {M : Spec.Mapping} {a : Addr} {v : Bytes} {s : World} (h : Mid M a v s) (hr : reads s a = v) :
    Shows (Spec.set M a v) s := by
  intro b
  unfold Spec.set
  cases hg : s.store.get (keyNibs b) with
  | none =>
    refine .inr ⟨rfl, ?_⟩
    split
    · rename_i e; subst e
      simp only [reads, hg] at hr; exact hr.symm
    · rename_i e
      rcases h.none b hg with h | h
      · exact h
      · exact absurd h.1 e
  | some p =>
    obtain ⟨h1, x, h2, h3⟩ := h.leaf b p hg
    refine .inl ⟨p, x, rfl, h1, h2, ?_⟩
    split
    · rename_i e; subst e
      simp only [reads, hg, h2] at hr; exact hr
    · rename_i e
      rcases h3 with h | h
      · exact h
      · exact absurd h.1 e

theorem Mid.old {M : Spec.Mapping} {a : Addr} {v : Bytes} {s : World} (h : Mid M a v s) (hr : reads s a ≠ v) : Shows M s := by
  intro b
  cases hg : s.store.get (keyNibs b) with
  | none =>
    refine .inr ⟨rfl, ?_⟩
    rcases h.none b hg with h1 | ⟨rfl, h1⟩
    · exact h1
    · simp only [reads, hg] at hr; exact absurd h1.symm hr
  | some p =>
    obtain ⟨h1, x, h2, h3⟩ := h.leaf b p hg
    refine .inl ⟨p, x, rfl, h1, h2, ?_⟩
    rcases h3 with h4 | ⟨rfl, h4⟩
    · exact h4
    · simp only [reads, hg, h2] at hr; exact absurd h4 hr

theorem Good.shows {M : Spec.Mapping} {w : World} (G : Good H M w) : Shows M w := by
  obtain ⟨m, hm⟩ := G.mem
  have h := (G.hold (a := BArr.zero 20) (v := M (BArr.zero 20))).now
  rw [snap_traced hm] at h
  intro b
  cases hg : w.store.get (keyNibs b) with
  | none =>
    refine .inr ⟨rfl, ?_⟩
    rcases h.none b hg with h | ⟨rfl, h⟩
    · exact h
    · exact h
  | some p =>
    obtain ⟨h1, x, h2, h3⟩ := h.leaf b p hg
    refine .inl ⟨p, x, rfl, h1, h2, ?_⟩
    rcases h3 with h | ⟨rfl, h⟩
    · exact h
    · exact h

/-- What is known about the states of a single `PutEntry`. -/
theorem Good.states {M : Spec.Mapping} {w : World} (G : Good H M w) (a : Addr) (v : Bytes) :
    ∃ r w', Tree.putEntry H a v w = some (r, w') ∧ Good H (Spec.set M a v) w' ∧
      (interruptions H a v w).Pairwise (Later a v) ∧
      ∀ s ∈ interruptions H a v w, Mid M a v s ∧ Keeps w s ∧ Keeps s w' := by
  obtain ⟨m, hm⟩ := G.mem
  obtain ⟨r, w', g', h1, h2, h3, h4⟩ := G.put a v
  have hH := hold_putEntry (G.hold (a := a) (v := v)) h1
  have hi : interruptions H a v w = g'.st.log := by rw [interruptions, h1]
  rw [hi]
  refine ⟨r, w', h2, h4, hH.order, ?_⟩
  intro s hs
  refine ⟨hH.past s hs, ?_, ?_⟩
  · obtain ⟨rest, hl⟩ := log_head hm h1
    have ho := hH.order
    rw [← hl] at ho hs
    rcases List.mem_cons.mp hs with rfl | hs
    · exact .refl _
    · exact ((List.pairwise_cons.mp ho).1 s hs).keeps
  · have hb := (hH.before s hs).keeps
    exact ⟨by rw [← h3.2.1]; exact hb.next, by rw [← h3.1]; exact hb.leaf⟩

/-! ## Many puts -/

/-- The number of `PutEntry` calls whose effect is visible in a state of the timeline. -/
def doneAt (all : List (Addr × Bytes)) (e : Nat × World) : Nat :=
  match all[e.1]? with
  | none => e.1
  | some (a, v) => if reads e.2 a = v then e.1 + 1 else e.1

theorem doneAt_bounds (all : List (Addr × Bytes)) (e : Nat × World) : e.1 ≤ doneAt all e ∧ doneAt all e ≤ e.1 + 1 := by
  unfold doneAt
  split
  · omega
  · split <;> omega

theorem final_snoc (pre : List (Addr × Bytes)) (a : Addr) (v : Bytes) :
    Spec.final (pre ++ [(a, v)]) = Spec.set (Spec.final pre) a v := by
  rw [final_foldl, final_foldl, List.foldl_append]; rfl

theorem timeline_spec : ∀ (puts pre : List (Addr × Bytes)) (w : World), Good H (Spec.final pre) w →
    (timeline H puts pre.length w).Pairwise (fun e e' => doneAt (pre ++ puts) e ≤ doneAt (pre ++ puts) e' ∧ e.1 ≤ e'.1 ∧
      Keeps e.2 e'.2) ∧
    (∀ e ∈ timeline H puts pre.length w, pre.length ≤ e.1 ∧ doneAt (pre ++ puts) e ≤ (pre ++ puts).length ∧ Keeps w e.2 ∧
      Shows (Spec.final ((pre ++ puts).take (doneAt (pre ++ puts) e))) e.2) ∧
    ∃ w', Tree.runPuts H puts w = some w' ∧ (timeline H puts pre.length w).getLast? = some ((pre ++ puts).length, w')
  | [], pre, w, G => by
    have hd : doneAt (pre ++ []) (pre.length, w) = pre.length := by simp [doneAt]
    refine ⟨List.pairwise_singleton _ _, ?_, w, rfl, by simp [timeline]⟩
    intro e he
    obtain rfl := List.mem_singleton.mp he
    refine ⟨Nat.le_refl _, by rw [hd]; simp, .refl _, ?_⟩
    rw [hd]
    simpa using G.shows
  | (a, v) :: puts, pre, w, G => by
    obtain ⟨r, w1, h1, G1, hp, hs⟩ := G.states a v
    rw [← final_snoc] at G1
    obtain ⟨i1, i2, w', i3, i4⟩ := timeline_spec puts (pre ++ [(a, v)]) w1 G1
    have e1 : pre ++ [(a, v)] ++ puts = pre ++ (a, v) :: puts := by simp
    have e2 : (pre ++ [(a, v)]).length = pre.length + 1 := by simp
    rw [e1, e2] at i1 i2 i4
    have ht : timeline H ((a, v) :: puts) pre.length w = (interruptions H a v w).map (fun s => (pre.length, s)) ++
        timeline H puts (pre.length + 1) w1 := by
      rw [timeline, h1]
    have hidx : (pre ++ (a, v) :: puts)[pre.length]? = some (a, v) := by simp
    have hdone : ∀ s, doneAt (pre ++ (a, v) :: puts) (pre.length, s) = if reads s a = v then pre.length + 1 else pre.length := by
      intro s; simp only [doneAt, hidx]
    rw [ht]
    refine ⟨?_, ?_, w', ?_, ?_⟩
    · rw [List.pairwise_append]
      refine ⟨?_, i1, ?_⟩
      · rw [List.pairwise_map]
        refine hp.imp ?_
        intro s s' hl
        refine ⟨?_, Nat.le_refl _, hl.keeps⟩
        rw [hdone, hdone]
        by_cases hr : reads s a = v
        · rw [if_pos hr, if_pos (hl.new hr)]; exact Nat.le_refl _
        · rw [if_neg hr]; split <;> omega
      · intro e he e' he'
        obtain ⟨s, hs1, rfl⟩ := List.mem_map.mp he
        obtain ⟨j1, -, j3, -⟩ := i2 e' he'
        have b1 := (doneAt_bounds (pre ++ (a, v) :: puts) (pre.length, s)).2
        have b2 := (doneAt_bounds (pre ++ (a, v) :: puts) e').1
        simp only at b1
        exact ⟨by omega, by simp only; omega, (hs s hs1).2.2.trans j3⟩
    · intro e he
      rcases List.mem_append.mp he with he | he
      · obtain ⟨s, hs1, rfl⟩ := List.mem_map.mp he
        obtain ⟨hM, hk, -⟩ := hs s hs1
        refine ⟨Nat.le_refl _, ?_, hk, ?_⟩
        · rw [hdone]
          have : (pre ++ (a, v) :: puts).length = pre.length + (puts.length + 1) := by simp
          split <;> omega
        · rw [hdone]
          by_cases hr : reads s a = v
          · rw [if_pos hr]
            have : (pre ++ (a, v) :: puts).take (pre.length + 1) = pre ++ [(a, v)] := by
              rw [List.take_append, List.take_of_length_le (Nat.le_succ _)]; simp
            rw [this, final_snoc]
            exact hM.new hr
          · rw [if_neg hr]
            have : (pre ++ (a, v) :: puts).take pre.length = pre := by simp
            rw [this]
            exact hM.old hr
      · obtain ⟨j1, j2, j3, j4⟩ := i2 e he
        refine ⟨by omega, j2, ?_, j4⟩
        have : Keeps w w1 := by
          obtain ⟨m, hm⟩ := G.mem
          obtain ⟨r', w1', g', k1, k2, -⟩ := G.put a v
          have hw : w ∈ interruptions H a v w := by
            rw [interruptions, k1]
            exact (log_head hm k1).subset (by simp)
          exact (hs w hw).2.2
        exact this.trans j3
    · simp only [Tree.runPuts, h1, i3]
    · rw [List.getLast?_append, i4]; rfl

/-- **C106**: `GetEntry` is linearizable with a concurrent writer. However long the sequence of `PutEntry` calls of the writer
and wherever the calls of the readers fall: there is one counter `done` of the `PutEntry` calls that have taken effect, which
never decreases; at every moment it counts all calls that have returned and at most the one that is running; and every
`GetEntry`, whose call of the store happens at the moment `t` and whose read of the node happens at any later moment `t'`,
returns (without a panic) exactly the entry of the mapping that the first `done t` puts define. The timeline is that of the
real calls: it ends in the state that the puts lead to, with all calls returned. -/
theorem C106_linearizable (H : Bytes → Hash32) (puts : List (Addr × Bytes)) :
    let T := timeline H puts 0 newWorld
    (∃ w, Tree.runPuts H puts newWorld = some w ∧ T.getLast? = some (puts.length, w)) ∧
    ∃ done : Nat → Nat,
      (∀ t t' (_ : t ≤ t') (h' : t' < T.length), done t ≤ done t' ∧ T[t].1 ≤ T[t'].1) ∧
      (∀ t (h : t < T.length), T[t].1 ≤ done t ∧ done t ≤ T[t].1 + 1 ∧ done t ≤ puts.length) ∧
      (∀ t t' (_ : t ≤ t') (h' : t' < T.length) (b : Addr), ∃ r, getEntryAcross b T[t].2 T[t'].2 = some r ∧
        r.getD [] = Spec.final (puts.take (done t)) b) := by
  intro T
  obtain ⟨h1, h2, w, h3, h4⟩ := timeline_spec (H := H) puts [] newWorld (by
    have := Good.new (H := H)
    exact this)
  simp only [List.nil_append, List.length_nil] at h1 h2 h4
  refine ⟨⟨w, h3, h4⟩, fun t => if h : t < T.length then doneAt puts T[t] else 0, ?_, ?_, ?_⟩
  · intro t t' htt h'
    have ht : t < T.length := by omega
    simp only [dif_pos ht, dif_pos h']
    rcases Nat.lt_or_eq_of_le htt with hlt | rfl
    · have := List.pairwise_iff_getElem.mp h1 t t' ht h' hlt
      exact ⟨this.1, this.2.1⟩
    · exact ⟨Nat.le_refl _, Nat.le_refl _⟩
  · intro t h
    simp only [dif_pos h]
    have b := doneAt_bounds puts T[t]
    exact ⟨b.1, b.2, (h2 _ (List.getElem_mem h)).2.1⟩
  · intro t t' htt h' b
    have ht : t < T.length := by omega
    simp only [dif_pos ht]
    refine ((h2 _ (List.getElem_mem ht)).2.2.2).across ?_ b
    rcases Nat.lt_or_eq_of_le htt with hlt | rfl
    · exact (List.pairwise_iff_getElem.mp h1 t t' ht h' hlt).2.2
    · exact .refl _

/-- Both cases of `done` occur: when a put changes an entry there are moments during the call at which it is not yet visible
(the first) and moments at which it is. -/
example (puts : List (Addr × Bytes)) (a : Addr) (v : Bytes) (hv : Spec.final puts a ≠ v) :
    ∃ w, Tree.runPuts H puts newWorld = some w ∧ (∃ s ∈ interruptions H a v w, reads s a ≠ v) ∧
      ∃ s ∈ interruptions H a v w, reads s a = v := by
  obtain ⟨w, h1, G⟩ := reach (H := H) puts
  obtain ⟨m, hm⟩ := G.mem
  obtain ⟨r, w', g', h2, -⟩ := G.put a v
  refine ⟨w, h1, ⟨w, ?_, ?_⟩, ?_⟩
  · rw [interruptions, h2]
    exact (log_head hm h2).subset (by simp)
  · rcases G.shows a with ⟨p, x, e1, -, e2, e3⟩ | ⟨e1, e2⟩
    · simp only [reads, e1, e2]; rw [e3]; exact hv
    · simp only [reads, e1]; rw [← e2]; exact hv
  · obtain ⟨s, hs, B⟩ := G.begun h2 hv
    refine ⟨s, by rw [interruptions, h2]; exact hs, ?_⟩
    rcases B.key with ⟨p, e1, e2⟩ | ⟨e1, e2⟩
    · simp only [reads, e1, e2]
    · simp only [reads, e2]; exact e1.symm

/-! ## `Hash` concurrently -/

theorem top_hashed {L : Nibbles → Bytes} : ∀ (d : Nat) (p : Nibbles) {s h}, Spec.top H L d p = some (s, h) → ∃ x, h = H x := by
  intro d
  induction d with
  | zero =>
    intro p s h e
    simp only [Spec.top] at e
    split at e
    · simp at e
    · simp only [Option.some.injEq, Prod.mk.injEq] at e
      exact ⟨_, e.2.symm⟩
  | succ d ih =>
    intro p s h e
    simp only [Spec.top] at e
    split at e
    · simp at e
    · rename_i k hk
      simp only [Option.some.injEq] at e
      obtain ⟨i, t, h1, h2⟩ := kids_head (k := k) (by rw [hk]; simp)
      rw [e] at h2
      exact ih _ h2
    · simp only [Option.some.injEq, Prod.mk.injEq] at e
      exact ⟨_, e.2.symm⟩

/-- The state between `updateEntry` and `updateHashes`. -/
theorem updateEntry_spec {w : World} {M : Spec.Mapping} (I : TreeInv H w M) (a : Addr) (v : Bytes) (hv : M a ≠ v) :
    ∃ w1 V', Tree.updateEntry a v w = some (true, w1) ∧ R w1 V' ∧ Upd (keyNibs a) v w.view V' := by
  have hr := I.wf.r
  have hlen := keyNibs_length a
  have hdel : v = [] → w.view (keyNibs a) ≠ none := by
    rintro rfl
    rw [I.map a, if_neg hv]; simp
  have hroot : w.view [] ≠ none := by obtain ⟨ch, hb⟩ := I.loc.root; rw [hb]; simp
  obtain ⟨V', e1, e2⟩ := upd_spec I.loc (value := v) hlen hdel maxDepth [] [] (by simp [maxDepth]) hroot rfl (.inl rfl)
  obtain ⟨w1, f1, f2⟩ := sim_upd (ps := []) (ks := []) hr trivial e1
  refine ⟨w1, V', ?_, f2, e2⟩
  have hm := I.map a
  by_cases hM : M a = []
  · rw [if_pos hM] at hm
    have hg := hr.get_none hm
    have hvl : v.length ≠ 0 := fun h => hv (hM.trans (List.length_eq_zero_iff.mp h).symm)
    simp only [Tree.updateEntry, TM.bind_eq, Tree.getNode, hg, hvl, if_false, f1]
    rfl
  · rw [if_neg hM] at hm
    obtain ⟨p, hg, hh⟩ := hr.get hm
    simp only [Tree.updateEntry, TM.bind_eq, Tree.getNode, hg, Tree.deref, hh, hv, if_false, f1]
    rfl

/-- The state after `updateEntry` is written down by the first call of the store in `updateHashes`. -/
theorem log_middle {a : Addr} {v : Bytes} {g : GWorld TState} {r g'} (h : putEntry tracing H a v g = some (r, g')) :
    ∃ c g1, updateEntry tracing a v g = some (c, g1) ∧ snap g1 ∈ g'.st.log := by
  obtain ⟨c, g1, h1, h2⟩ := bind_inv h
  refine ⟨c, g1, h1, ?_⟩
  obtain ⟨x, g2, h3, h4⟩ := bind_inv h2
  obtain ⟨-, rfl⟩ := pure_inv h4
  have hm : maxDepth = 63 + 1 := rfl
  rw [hm] at h3
  generalize 63 = fuel at h3
  rw [updateHashes] at h3
  obtain ⟨n, g3, h5, h6⟩ := bind_inv h3
  have q : snap g1 ∈ g3.st.log := by
    simp only [tracing, Option.some.injEq, Prod.mk.injEq] at h5
    rw [← h5.2]; simp
  cases n with
  | none => simp [GM.panic] at h6
  | some p =>
    simp only at h6
    refine List.IsPrefix.subset ?_ q
    refine Adds.bind (m := deref p) (.deref _) (fun o => ?_) _ _ _ h6
    cases o with
    | leaf lp v => exact .pure _
    | branch pfx ch =>
      exact .bind (.hashLoop (.hashes fuel) _ _ _) fun _ => .bind (.asBranch _) fun _ => .bind (.put _ _) fun _ => .pure _

/-- **C107 is violated**: whatever the tree holds, whenever `PutEntry` gives an entry a new (non-empty) value there is a
moment at which `Hash` returns the hash of a string that describes no mapping at all: it contains a zero hash, the mark for
"not yet computed". If it is the root hash of any mapping nevertheless, then this string collides with one of the strings
hashed for that mapping. -/
theorem C107_hash_violated (hH : ∀ x, H x ≠ zeroHash) (puts : List (Addr × Bytes)) (a : Addr) (v : Bytes) (hne : v ≠ [])
    (hv : Spec.final puts a ≠ v) :
    ∃ w, Tree.runPuts H puts newWorld = some w ∧ ∃ s ∈ interruptions H a v w, ∃ x, Tree.hash H s = some (H x, s) ∧
      ∀ M : Spec.Mapping, Spec.rootHash H M = H x → CollisionIn H [x] (Spec.rootStrings H M) := by
  obtain ⟨w, h1, G⟩ := reach (H := H) puts
  obtain ⟨m, hm⟩ := G.mem
  obtain ⟨r, w', g', h2, h3, -, -⟩ := G.put a v
  refine ⟨w, h1, ?_⟩
  obtain ⟨c, g1, h4, h5⟩ := log_middle h2
  obtain ⟨w1, V, f1, f2, f3⟩ := updateEntry_spec G.inv a v hv
  have hsim : Sim (fun s : TState => mget s.nodes) g1 w1 := by
    rcases sim_updateEntry tracing_keeps.ops a v (traced w) w (traced_sim hm) with ⟨h, _⟩ | ⟨c', g1', w1', k1, k2, k3⟩
    · rw [h4] at h; simp at h
    · rw [h4] at k1; rw [f1] at k2
      simp only [Option.some.injEq, Prod.mk.injEq] at k1 k2
      obtain ⟨-, rfl⟩ := k1; obtain ⟨-, rfl⟩ := k2
      exact k3
  refine ⟨snap g1, by rw [interruptions, h2]; exact h5, ?_⟩
  obtain ⟨ch, hb⟩ := f3.loc.root
  obtain ⟨p, hp, hh⟩ := f2.get hb
  obtain ⟨s1, s2, m1, s3, s4⟩ := hsim
  have hp' : (snap g1).store.get [] = some p := by
    rw [s3] at hp
    show mget g1.st.nodes [] = _
    exact (s4 []).trans hp
  have hh' : (snap g1).heap p = .branch [] ch := by
    show g1.heap p = _
    rw [s1]; exact hh
  refine ⟨branchBytes [] ch, ?_, ?_⟩
  · simp only [Tree.hash, TM.bind_eq, Tree.getNode, hp', Tree.asBranch, Tree.deref, hh']
    rfl
  · intro M hM
    refine ⟨_, List.mem_singleton_self _, _, List.mem_cons_self, ?_, hM.symm⟩
    intro he
    replace he := he.symm
    rw [branchBytes_eq] at he
    have hentry : V (keyNibs a) ≠ none := by rw [f3.entry, if_neg hne]; simp
    obtain ⟨c', hl, hcp⟩ := hb.route f3.loc hentry (List.nil_prefix) (by rw [keyNibs_length]; exact Nat.succ_pos _)
    obtain ⟨ch', i, t, hb', hi, hs, hc'⟩ := hl
    obtain rfl := hb.unique hb'
    have hz := (f3.path hb List.nil_prefix hi).1 (by
      rw [hc'] at hcp
      exact (List.prefix_append [i] t).trans hcp)
    have hlen : ∀ j, (ch j).exist = true → (ch j).suffix.length ≤ 40 := by
      intro j hj
      have := f3.loc.len_le (f3.loc.child hb hj).2
      simpa using this
    have hks := branchEnc_inj kids_length (by
        simp only [List.length_map, existing]
        exact Nat.le_trans (List.length_filter_le _ _) (by simp)) (kids_len (p := []) (by omega)) (by
        intro k hk
        obtain ⟨cc, h1, rfl⟩ := List.mem_map.mp hk
        simp only [existing, List.mem_filter, List.mem_map] at h1
        obtain ⟨⟨j, -, rfl⟩, hj⟩ := h1
        have := hlen j hj
        show (ch j).suffix.length < 256
        omega) he
    have hmem : ((ch i).suffix, zeroHash) ∈ (existing ch).map fun c => (c.suffix, c.hash) := by
      refine List.mem_map.mpr ⟨ch i, ?_, by rw [hz]⟩
      simp only [existing, List.mem_filter, List.mem_map]
      exact ⟨⟨i, List.mem_finRange i, rfl⟩, hi⟩
    rw [← hks] at hmem
    obtain ⟨j, t', -, hj⟩ := kids_head hmem
    obtain ⟨x, hx⟩ := top_hashed _ _ hj
    exact hH x hx.symm

/-- The hypotheses are met from any tree by any key. -/
example (puts : List (Addr × Bytes)) (a : Addr) : (0 : UInt8) :: Spec.final puts a ≠ [] ∧
    Spec.final puts a ≠ (0 : UInt8) :: Spec.final puts a :=
  ⟨by simp, fun h => by have := congrArg List.length h; simp at this⟩

end Nimiq.Tree.Generic
