import Verif.Tree.Slices
/-!
# C93 (slice aliasing inside the tree is invisible) and C94 (the caller's value slices are not copied)
-/
namespace Nimiq.Tree

variable {H : Bytes → Hash32} {grow : Nat → Nat → Nat → Nat}

/-- The slice level tree is well-formed, has correct cached hashes and holds the mapping `M`. -/
def SInv (H : Bytes → Hash32) (w : SWorld) (M : Spec.Mapping) : Prop :=
  ∃ V, RS w V ∧ Loc V ∧ Clean H V ∧ ∀ a, V (keyNibs a) = if M a = [] then none else some (.leaf (keyNibs a) (M a))

theorem sKey_inv {w : SWorld} {V} (h : RS w V) (a : Addr) :
    RS (sKey w a).2 V ∧ (sKey w a).1.arr < (sKey w a).2.nextArr ∧ NoRef (sKey w a).2 (sKey w a).1.arr ∧
    (sKey w a).2.store = w.store ∧ (sKey w a).2.heap = w.heap ∧ (sKey w a).2.vals = w.vals := by
  have hfr : ∀ s : Slice, s.arr < w.nextArr → (sKey w a).2.rd s = w.rd s := by
    intro s hs
    apply SWorld.rd_congr
    intro x _ _
    simp only [sKey]
    rw [if_neg (by omega)]
  refine ⟨h.mem rfl rfl rfl rfl (Nat.le_succ _) (fun k p s hg hu => hfr s (h.valid hg hu)), Nat.lt_succ_self _, ?_, rfl, rfl, rfl⟩
  intro k p s hg hu
  exact h.fresh k p s hg hu

theorem sUpdateHashes_spec {w V} (h : RS w V) (L : Loc V) (hs : SemiUnder H V []) :
    ∃ x w' V', sUpdateHashes grow H maxDepth .nil w = some (x, w') ∧ RS w' V' ∧ Shape V V' ∧ Clean H V' ∧
      w'.vals = w.vals ∧ ∀ q, w'.store.get q = w.store.get q := by
  have hroot : V [] ≠ none := by obtain ⟨ch, hb⟩ := L.root; rw [hb]; simp
  obtain ⟨x, V', e1, e2, e3, e4, o, e5, e6⟩ := updH_spec maxDepth V [] L hroot hs (by simp [maxDepth])
  obtain ⟨w', f1, f2, f3⟩ := s_updH (grow := grow) (s := .nil) h h.pos (.inl (Nat.le_refl _)) e1
  exact ⟨x, w', V', f1, f2, e2, fun k ch i hb hi => e4 k ch i List.nil_prefix hb hi, f3.vals, f3.get⟩

theorem newWorld_loc : Loc newWorld.view ∧ Clean H newWorld.view := ⟨(newWorld_inv (H := H)).loc, newWorld_inv.clean⟩

theorem sNew_inv (vals) : SInv H (sNew vals) (fun _ => []) := by
  refine ⟨newWorld.view, ?_, newWorld_loc (H := H) |>.1, newWorld_loc.2, (newWorld_inv (H := H)).map⟩
  have hg : ∀ {k p}, (sNew vals).store.get k = some p → k = [] ∧ p = 0 := by
    intro k p hk
    simp only [sNew, Store.get, mget, List.find?_cons, List.find?_nil] at hk
    by_cases e : k = []
    · subst e; simp at hk; exact ⟨rfl, hk.symm⟩
    · simp [Ne.symm e] at hk
  refine ⟨(newWorld_inv (H := H)).wf.usable, ?_, ?_, ?_, ?_, ?_, ?_, ?_, Nat.one_pos⟩
  · intro k p h; rw [(hg h).2]; exact Nat.one_pos
  · intro k k' p h h'; rw [(hg h).1, (hg h').1]
  · intro k h
    have : newWorld.store.get k = none := h
    simp [World.view, this]
  · intro k p h
    obtain ⟨rfl, rfl⟩ := hg h
    refine ⟨_, by simp [newWorld_view]; rfl, ?_⟩
    exact ⟨rfl, fun i => ⟨rfl, fun e => by simp [Child.zero] at e⟩⟩
  · intro k p s h hu
    rcases hu with rfl | ⟨i, hi, _⟩
    · exact Nat.one_pos
    · simp [SChild.zero] at hi
  · intro k1 p1 s1 c1 k2 p2 s2 c2 h1 _ _ h2 _ _ _
    rw [(hg h1).2, (hg h2).2]
  · intro k1 p1 s1 c1 k2 p2 s h1 _ _ h2 hne
    exact absurd ((hg h1).2.trans (hg h2).2.symm) hne

theorem sPutEntry_spec {w : SWorld} {M : Spec.Mapping} (I : SInv H w M) (a : Addr) (val : Slice) :
    ∃ b w', sPutEntry grow H a val w = some (b, w') ∧ SInv H w' (Spec.set M a (w.rdv val)) ∧
      (b = true ↔ M a ≠ w.rdv val) ∧ w'.vals = w.vals ∧
      (∀ w1, sUpdateEntry grow a val w = some (b, w1) → ∀ q, w'.store.get q = w1.store.get q) := by
  obtain ⟨V, h, L, C, map⟩ := I
  obtain ⟨k1, k2, k3, k4, k5, k6⟩ := sKey_inv h a
  have k7 := sKey_rd w a
  unfold sPutEntry
  generalize hU : sUpdateEntry grow a val w = U
  unfold sUpdateEntry at hU
  generalize sKey w a = r at k1 k2 k3 k4 k5 k6 k7 hU
  obtain ⟨P, w0⟩ := r
  simp only at k1 k2 k3 k4 k5 k6 k7 hU ⊢
  generalize hvd : w.rdv val = v
  have hval : w0.rdv val = v := by rw [rdv_same k6]; exact hvd
  have hvl : val.len = v.length := by rw [← hvd]; simp
  have hlen := keyNibs_length a
  have noop : M a = v → U = some (false, w0) →
      ∃ b w', (match U with
        | none => none
        | some (changed, w) => (sUpdateHashes grow H maxDepth .nil w).map fun r => (changed, r.2)) = some (b, w') ∧
        SInv H w' (Spec.set M a v) ∧ (b = true ↔ M a ≠ v) ∧ w'.vals = w.vals ∧
        (∀ w1, U = some (b, w1) → ∀ q, w'.store.get q = w1.store.get q) := by
    rintro hM rfl
    obtain ⟨x, w', V', e1, e2, e3, e4, e5, e6⟩ := sUpdateHashes_spec (grow := grow) k1 L (semi_of_clean C [])
    refine ⟨false, w', by simp only [e1, Option.map_some], ⟨V', e2, L.shape e3, e4, ?_⟩, by simp [hM], e5.trans k6, ?_⟩
    · intro b
      rw [set_same hM]
      have := map b
      split at this
      · rename_i h; rw [if_pos h]; exact e3.none this
      · rename_i h; rw [if_neg h]; exact e3.leaf this
    · intro w1 hw1; cases hw1; exact e6
  have change : M a ≠ v → (∀ w1, sUpdate grow maxDepth .nil P val [] w0 = some w1 → U = some (true, w1)) →
      ∃ b w', (match U with
        | none => none
        | some (changed, w) => (sUpdateHashes grow H maxDepth .nil w).map fun r => (changed, r.2)) = some (b, w') ∧
        SInv H w' (Spec.set M a v) ∧ (b = true ↔ M a ≠ v) ∧ w'.vals = w.vals ∧
        (∀ w1, U = some (b, w1) → ∀ q, w'.store.get q = w1.store.get q) := by
    intro hM hu
    have hdel : v = [] → V (keyNibs a) ≠ none := by
      rintro rfl
      rw [map a, if_neg hM]; simp
    have hroot : V [] ≠ none := by obtain ⟨ch, hb⟩ := L.root; rw [hb]; simp
    obtain ⟨V1, e1, e2⟩ := upd_spec L (value := v) hlen hdel maxDepth [] [] (by simp [maxDepth]) hroot rfl (.inl rfl)
    obtain ⟨w1, f1, f2, f3⟩ := s_upd (grow := grow) (A := .nil) (P := P) (val := val) (ps := []) (ks := []) L k1 trivial
      k1.pos (.inl rfl) k2 k3.noOwn hval (by rw [k7]; exact e1)
    obtain ⟨x, w', V', g1, g2, g3, g4, g5, g6⟩ := sUpdateHashes_spec (grow := grow) f2 e2.loc (semi_of_upd C e2)
    refine ⟨true, w', by simp only [hu w1 f1, g1, Option.map_some], ⟨V', g2, e2.loc.shape g3, g4, ?_⟩, by simp [hM],
      g5.trans (f3.trans k6), ?_⟩
    · intro b
      by_cases hb : b = a
      · subst hb
        have := e2.entry
        simp only [Spec.set, if_true]
        split at this
        · rename_i h; rw [if_pos h]; exact g3.none this
        · rename_i h; rw [if_neg h]; exact g3.leaf this
      · have hnp : ¬ keyNibs b <+: keyNibs a := fun h =>
          hb (keyNibs_inj (h.eq_of_length (by rw [keyNibs_length, keyNibs_length])))
        have := e2.off _ hnp
        rw [map b] at this
        simp only [Spec.set, if_neg hb]
        split at this
        · rename_i h; rw [if_pos h]; exact g3.none this
        · rename_i h; rw [if_neg h]; exact g3.leaf this
    · intro w2 hw2
      rw [hu w1 f1] at hw2
      cases hw2; exact g6
  have hm := map a
  by_cases hM : M a = []
  · rw [if_pos hM] at hm
    have hg : w0.store.get (w0.rd P) = none := by
      rw [k7]
      cases hg : w0.store.get (keyNibs a) with
      | none => rfl
      | some p => obtain ⟨o, h1, _⟩ := k1.some hg; rw [hm] at h1; cases h1
    simp only [hg] at hU
    by_cases hv : v = []
    · exact noop (by rw [hM, hv]) (by rw [← hU, if_pos (by rw [hvl, hv]; rfl)])
    · have hvl' : val.len ≠ 0 := fun e => hv (List.length_eq_zero_iff.mp (hvl.symm.trans e))
      exact change (by rw [hM]; exact Ne.symm hv) (fun w1 hw1 => by rw [← hU, if_neg hvl', hw1]; rfl)
  · rw [if_neg hM] at hm
    cases hg : w0.store.get (w0.rd P) with
    | none => rw [k7] at hg; rw [k1.none hg] at hm; cases hm
    | some p =>
      rw [k7] at hg
      obtain ⟨o, h1, h2⟩ := k1.some hg
      rw [hm] at h1; cases h1
      rw [k7] at hU
      simp only [hg] at hU
      cases hn : w0.heap p with
      | branch _ _ => rw [hn] at h2; exact h2.elim
      | leaf lp lv =>
        rw [hn] at h2
        simp only [hn, h2.2, hval] at hU
        by_cases hv : M a = v
        · exact noop hv (by rw [← hU, if_pos hv])
        · exact change hv (fun w1 hw1 => by rw [← hU, if_neg hv, hw1]; rfl)

theorem sGetEntry_spec {w : SWorld} {M : Spec.Mapping} (I : SInv H w M) (a : Addr) :
    ∃ r w', sGetEntry a w = some (r, w') ∧ r.map w'.rdv = (if M a = [] then none else some (M a)) ∧ SInv H w' M ∧
      w'.vals = w.vals := by
  obtain ⟨V, h, L, C, map⟩ := I
  obtain ⟨k1, k2, k3, k4, k5, k6⟩ := sKey_inv h a
  have k7 := sKey_rd w a
  unfold sGetEntry
  generalize sKey w a = r at k1 k2 k3 k4 k5 k6 k7
  obtain ⟨P, w0⟩ := r
  simp only at k1 k2 k3 k4 k5 k6 k7 ⊢
  rw [k7]
  have hm := map a
  cases hg : w0.store.get (keyNibs a) with
  | none =>
    rw [k1.none hg] at hm
    refine ⟨none, w0, rfl, ?_, ⟨V, k1, L, C, map⟩, k6⟩
    split at hm
    next e => rw [if_pos e]; rfl
    · cases hm
  | some p =>
    obtain ⟨o, h1, h2⟩ := k1.some hg
    rw [h1] at hm
    split at hm
    · cases hm
    next e =>
      cases hm
      cases hn : w0.heap p with
      | branch _ _ => rw [hn] at h2; exact h2.elim
      | leaf lp lv =>
        rw [hn] at h2
        exact ⟨some lv, w0, by simp only [hn], by rw [if_neg e, Option.map_some, h2.2], ⟨V, k1, L, C, map⟩, k6⟩

theorem sHash_spec {w : SWorld} {M : Spec.Mapping} (I : SInv H w M) : sHash H w = some (Spec.rootHash H M) := by
  obtain ⟨V, h, L, C, map⟩ := I
  obtain ⟨ch, hb⟩ := L.root
  rw [← root_hash L C map hb]
  unfold sHash
  cases hg : w.store.get [] with
  | none => have := h.none hg; rw [hb] at this; cases this
  | some p =>
    obtain ⟨s, c, h1, h2⟩ := h.branchOf hg hb
    simp only [h1, sHashObj_eq h2]

/-! ## C93 -/

/-- States of the slice level tree: any number of puts and gets over any stack of overlays; `vals` is the caller's value
memory, which is not written to. `M` is the mapping that the puts have produced. -/
inductive SReach (grow : Nat → Nat → Nat → Nat) (H : Bytes → Hash32) (vals : Nat → Nat → UInt8) :
    SWorld → Spec.Mapping → Prop where
  | fresh : SReach grow H vals (sNew vals) (fun _ => [])
  | put {w M a val b w'} : SReach grow H vals w M → sPutEntry grow H a val w = some (b, w') →
      SReach grow H vals w' (Spec.set M a (w.rdv val))
  | get {w M a r w'} : SReach grow H vals w M → sGetEntry a w = some (r, w') → SReach grow H vals w' M
  | push {w M} : SReach grow H vals w M → SReach grow H vals { w with store := .overlay w.store (some []) } M
  | flush {w M lower d order s'} : SReach grow H vals w M → w.store = .overlay lower (some d) → order.Perm d →
      w.store.flush order = some s' → SReach grow H vals { w with store := s' } M

theorem SReach.inv {vals w M} (h : SReach grow H vals w M) : SInv H w M ∧ w.vals = vals := by
  induction h with
  | fresh => exact ⟨sNew_inv _, rfl⟩
  | @put w M a val b w' _ hp ih =>
    obtain ⟨b, w1, e1, e2, _, e4, _⟩ := sPutEntry_spec (grow := grow) ih.1 a val
    rw [hp] at e1
    simp only [Option.some.injEq, Prod.mk.injEq] at e1
    rw [e1.2]; exact ⟨e2, e4.trans ih.2⟩
  | @get w M a r w' _ hg ih =>
    obtain ⟨r, w1, e1, _, e2, e3⟩ := sGetEntry_spec ih.1 a
    rw [hg] at e1
    simp only [Option.some.injEq, Prod.mk.injEq] at e1
    rw [e1.2]; exact ⟨e2, e3.trans ih.2⟩
  | @push w M _ ih =>
    obtain ⟨⟨V, h, r⟩, hv⟩ := ih
    exact ⟨⟨V, h.restore ⟨h.usable, _, rfl, by simp [NodupKeys]⟩ (fun q => by simp [Store.get, mget]), r⟩, hv⟩
  | @flush w M lower d order s' _ hw hp hf ih =>
    obtain ⟨⟨V, h, r⟩, hv⟩ := ih
    have hu := h.usable
    rw [hw] at hu
    obtain ⟨h1, d0, h2, h3⟩ := hu
    simp only [Option.some.injEq] at h2
    subst h2
    obtain ⟨l', e1, e2, e3⟩ := flush_spec h1 h3 hp
    rw [hw, e1] at hf
    cases hf
    refine ⟨⟨V, h.restore ⟨e2, _, rfl, by simp [NodupKeys]⟩ (fun q => ?_), r⟩, hv⟩
    rw [hw, ← e3 q]; simp [Store.get, mget]

/-- C93: with Go slices, shared arrays and in-place `append`s, for every growth policy of `append` and every history, the
tree still is the map `M`: no operation panics, `GetEntry` returns the last value, `Hash` is the canonical root hash and
`PutEntry` reports changes exactly. -/
theorem C93_slices {vals w M} (h : SReach grow H vals w M) :
    (∀ a, ∃ r w', sGetEntry a w = some (r, w') ∧ r.map w'.rdv = if M a = [] then none else some (M a)) ∧
    sHash H w = some (Spec.rootHash H M) ∧
    (∀ a val, ∃ b w', sPutEntry grow H a val w = some (b, w') ∧ (b = true ↔ M a ≠ w.rdv val)) := by
  have I := h.inv.1
  refine ⟨?_, sHash_spec I, ?_⟩
  · intro a
    obtain ⟨r, w', e1, e2, _⟩ := sGetEntry_spec I a
    exact ⟨r, w', e1, e2⟩
  · intro a val
    obtain ⟨b, w', e1, _, e3, _⟩ := sPutEntry_spec (grow := grow) I a val
    exact ⟨b, w', e1, e3⟩

/-- Successive `PutEntry` calls of the slice level program and what they return. -/
def sTrace (grow : Nat → Nat → Nat → Nat) (H : Bytes → Hash32) : List (Addr × Slice) → SWorld → Option (List Bool × SWorld)
  | [], w => some ([], w)
  | (a, v) :: rest, w =>
    match sPutEntry grow H a v w with
    | none => none
    | some (b, w) => (sTrace grow H rest w).map fun r => (b :: r.1, r.2)

/-- Successive `PutEntry` calls of the list level program and what they return. -/
def lTrace (H : Bytes → Hash32) : List (Addr × Bytes) → World → Option (List Bool × World)
  | [], w => some ([], w)
  | (a, v) :: rest, w =>
    match putEntry H a v w with
    | none => none
    | some (b, w) => (lTrace H rest w).map fun r => (b :: r.1, r.2)

theorem trace_refines : ∀ (puts : List (Addr × Slice)) {ws : SWorld} {wl : World} {M : Spec.Mapping}, SInv H ws M →
    TreeInv H wl M → ∃ bs ws' wl' M', sTrace grow H puts ws = some (bs, ws') ∧
      lTrace H (puts.map fun e => (e.1, ws.rdv e.2)) wl = some (bs, wl') ∧ SInv H ws' M' ∧ TreeInv H wl' M' := by
  intro puts
  induction puts with
  | nil => intro ws wl M I J; exact ⟨[], ws, wl, M, rfl, rfl, I, J⟩
  | cons e puts ih =>
    obtain ⟨a, v⟩ := e
    intro ws wl M I J
    obtain ⟨b, ws1, e1, e2, e3, e4, _⟩ := sPutEntry_spec (grow := grow) I a v
    obtain ⟨b', wl1, f1, f2, f3⟩ := putEntry_spec J a (ws.rdv v)
    have hb : b = b' := by
      cases b <;> cases b' <;> simp_all
    subst hb
    obtain ⟨bs, ws', wl', M', g1, g2, g3, g4⟩ := ih e2 f2
    refine ⟨b :: bs, ws', wl', M', by simp only [sTrace, e1, g1, Option.map_some], ?_, g3, g4⟩
    have hmap : puts.map (fun e => (e.1, ws1.rdv e.2)) = puts.map (fun e => (e.1, ws.rdv e.2)) := by
      apply List.map_congr_left
      intro e _
      rw [rdv_same e4]
    rw [hmap] at g2
    simp only [List.map_cons, lTrace, f1, g2, Option.map_some]

/-- C93, as a refinement: the program with slices and the program with immutable lists give the same answers, for every
list of puts, every contents of the caller's memory and every growth policy. -/
theorem C93_refines (vals : Nat → Nat → UInt8) (puts : List (Addr × Slice)) :
    ∃ bs ws wl, sTrace grow H puts (sNew vals) = some (bs, ws) ∧
      lTrace H (puts.map fun e => (e.1, (sNew vals).rdv e.2)) newWorld = some (bs, wl) ∧
      (∀ a, ∃ r ws', sGetEntry a ws = some (r, ws') ∧ getEntry a wl = some (r.map ws'.rdv, wl)) ∧
      ∃ h, sHash H ws = some h ∧ hash H wl = some (h, wl) := by
  obtain ⟨bs, ws, wl, M, e1, e2, I, J⟩ := trace_refines (H := H) (grow := grow) puts (sNew_inv vals) newWorld_inv
  refine ⟨bs, ws, wl, e1, e2, ?_, _, sHash_spec I, hash_spec J⟩
  intro a
  obtain ⟨r, ws', f1, f2, _⟩ := sGetEntry_spec I a
  exact ⟨r, ws', f1, by rw [f2]; exact getEntry_spec J a⟩

/-! ## C94 -/

/-- The caller writes one byte of its value memory. -/
def SWorld.poke (w : SWorld) (arr x : Nat) (b : UInt8) : SWorld :=
  { w with vals := fun a y => if a = arr ∧ y = x then b else w.vals a y }

/-- The leaf stored for the path `q` holds the value slice `val`. -/
def LeafAt (w : SWorld) (q : Nibbles) (val : Slice) : Prop :=
  ∃ p pf, w.store.get q = some p ∧ w.heap p = .leaf pf val

theorem sInvalidate_keeps : ∀ (path : List Ptr) {cur : Slice} {w w' : SWorld}, sInvalidate cur path w = some w' →
    w'.store = w.store ∧ ∀ p pf v, w.heap p = .leaf pf v → w'.heap p = .leaf pf v := by
  intro path
  induction path with
  | nil => intro cur w w' h; simp only [sInvalidate, Option.some.injEq] at h; subst h; exact ⟨rfl, fun _ _ _ h => h⟩
  | cons p path ih =>
    intro cur w w' h
    simp only [sInvalidate] at h
    split at h
    · cases h
    next pfx ch hh =>
      split at h
      · cases h
      · split at h
        · cases h
        next ch' _ =>
          obtain ⟨h1, h2⟩ := ih h
          refine ⟨h1, fun p' pf v hp' => h2 p' pf v ?_⟩
          have : p' ≠ p := by rintro rfl; rw [hh] at hp'; cases hp'
          simp only [SWorld.write, if_neg this]; exact hp'

theorem LeafAt.inv {w w' q val path} {cur : Slice} (h : LeafAt w q val) (hi : sInvalidate cur path w = some w') :
    LeafAt w' q val := by
  obtain ⟨p, pf, h1, h2⟩ := h
  obtain ⟨e1, e2⟩ := sInvalidate_keeps path hi
  exact ⟨p, pf, by rw [e1]; exact h1, e2 p pf val h2⟩

/-- Looking up after a successful `PutNode`. -/
theorem put_get {s s' : Store} {k : Nibbles} {p : Ptr} (h : s.put k p = some s') (q : Nibbles) :
    s'.get q = if q = k then some p else s.get q := by
  cases s with
  | mem nodes => simp only [Store.put, Option.some.injEq] at h; subst h; simp [Store.get, mget_mput]
  | overlay lower diffs =>
    cases diffs with
    | none => simp [Store.put] at h
    | some d =>
      simp only [Store.put, Option.some.injEq] at h; subst h
      simp only [Store.get, Option.bind_some, mget_mput]
      by_cases h : q = k <;> simp [h]

theorem SWorld.put_get {w w' : SWorld} {k p} (h : w.put k p = some w') :
    (∀ q, w'.store.get q = if q = k then some p else w.store.get q) ∧ w'.heap = w.heap ∧ w'.next = w.next ∧
      w'.arrs = w.arrs := by
  unfold SWorld.put at h
  rw [Option.map_eq_some_iff] at h
  obtain ⟨s, h1, rfl⟩ := h
  exact ⟨Tree.put_get h1, rfl, rfl, rfl⟩

theorem sPutChild_len {w : SWorld} {c s h c'} (hp : sPutChild w c s h = some c') : s.len ≠ 0 := by
  unfold sPutChild at hp; split at hp
  · cases hp
  · assumption

theorem from_len {s t : Slice} {n : Nat} (h : s.from n = some t) : n ≤ s.len ∧ t.len = s.len - n := by
  unfold Slice.from at h; split at h
  next hn => cases h; exact ⟨hn, rfl⟩
  · cases h

theorem s_upd_leaf : ∀ (fuel : Nat) {w w' : SWorld} {A P val : Slice} {path : List Ptr}, val.len ≠ 0 →
    P.arr < w.nextArr → sUpdate grow fuel A P val path w = some w' → LeafAt w' (w.rd P) val := by
  intro fuel
  induction fuel with
  | zero => intro w w' A P val path _ _ h; simp [sUpdate] at h
  | succ fuel ih =>
    intro w w' A P val path hval hP h
    unfold sUpdate at h
    split at h
    · -- a new leaf and a new parent
      unfold sSplit at h
      split at h
      · cases h
      next w1 hw1 =>
        obtain ⟨g1, g2, g3, g4⟩ := SWorld.put_get hw1
        simp only at h
        generalize sCommon w1 A P = par at h
        split at h
        · cases h
        next s1 hs1 =>
          split at h
          · cases h
          next ch1 _ =>
            split at h
            · cases h
            next s2 hs2 =>
              split at h
              · cases h
              next ch2 hch2 =>
                split at h
                · cases h
                next w2 hw2 =>
                  obtain ⟨f1, f2, f3, f4⟩ := SWorld.put_get hw2
                  refine LeafAt.inv ?_ h
                  have hl := from_len hs2
                  have hz := sPutChild_len hch2
                  have hne : w.rd P ≠ w1.rd par := by
                    intro e
                    have := congrArg List.length e
                    simp at this; omega
                  have hnx : w1.next = w.next + 1 := g3
                  refine ⟨w.next, P, ?_, ?_⟩
                  · rw [f1, if_neg hne]
                    show w1.store.get _ = _
                    rw [g1, if_pos rfl]
                  · rw [f2]
                    simp only [SWorld.alloc]
                    rw [if_neg (show w.next ≠ w1.next by rw [hnx]; exact Nat.ne_of_lt (Nat.lt_succ_self _)), g2]
                    simp only [SWorld.alloc, if_true]
    · split at h
      next he =>
        rw [Option.bind_eq_some_iff] at h
        obtain ⟨w1, hw1, h⟩ := h
        obtain ⟨g1, g2, g3, g4⟩ := SWorld.put_get hw1
        refine LeafAt.inv ⟨w.next, A, ?_, ?_⟩ h
        · rw [g1, if_pos he.symm]
        · rw [g2]; simp only [SWorld.alloc, if_true]
      · split at h
        · cases h
        next node hnode =>
          split at h
          · cases h
          next npfx ch hh =>
            split at h
            next hlt =>
              simp only at h
              split at h
              · -- descend
                obtain ⟨f1, f2, f3, f4, f5⟩ := sAppend_same (grow := grow) w npfx.clip (ch (w.nib P npfx.len)).suffix
                have hfr : (sAppend grow w npfx.clip (ch (w.nib P npfx.len)).suffix).2.rd P = w.rd P := by
                  apply SWorld.rd_congr
                  intro x _ _
                  by_cases ht : (ch (w.nib P npfx.len)).suffix.len = 0
                  · unfold sAppend
                    rw [if_pos (by simp only [Slice.clip]; omega)]
                    simp only
                    rw [if_neg (by omega)]
                  · exact sAppend_frame w _ _ hP (.inl (by simp only [Slice.clip]; omega))
                have := ih hval (Nat.lt_of_lt_of_le hP f5) h
                rw [hfr] at this
                exact this
              · -- a new leaf below `node`
                unfold sAddLeaf at h
                split at h
                · cases h
                next w1 hw1 =>
                  obtain ⟨g1, g2, g3, g4⟩ := SWorld.put_get hw1
                  split at h
                  · cases h
                  next npfx' ch' hh' =>
                    split at h
                    · cases h
                    next s hs =>
                      split at h
                      · cases h
                      next ch2 hch2 =>
                        simp only at h
                        rw [Option.bind_eq_some_iff] at h
                        obtain ⟨w2, hw2, h⟩ := h
                        obtain ⟨f1, f2, f3, f4⟩ := SWorld.put_get hw2
                        have hl := from_len hs
                        have hz := sPutChild_len hch2
                        have hne : w.rd P ≠ (w1.write node (.branch npfx' ch2)).rd npfx' := by
                          intro e
                          have := congrArg List.length e
                          simp at this; omega
                        have hnn : w.next ≠ node := by
                          rintro rfl
                          rw [g2] at hh'
                          simp [SWorld.alloc] at hh'
                        refine LeafAt.inv ⟨w.next, P, ?_, ?_⟩ h
                        · rw [f1, if_neg hne]
                          show w1.store.get _ = _
                          rw [g1, if_pos rfl]
                        · rw [f2]
                          simp only [SWorld.write, if_neg hnn]
                          rw [g2]
                          simp only [SWorld.alloc, if_true]
            · cases h

theorem sHashLoop_keeps {rec : Slice → SWorld → Option (Hash32 × SWorld)}
    (hrec : ∀ {s w h w'}, rec s w = some (h, w') → ∀ p pf v, w.heap p = .leaf pf v → w'.heap p = .leaf pf v)
    {s : Slice} {p0 : Ptr} : ∀ (is : List Nib) {w w' : SWorld}, sHashLoop grow rec s p0 is w = some w' →
    ∀ p pf v, w.heap p = .leaf pf v → w'.heap p = .leaf pf v := by
  intro is
  induction is with
  | nil => intro w w' h; simp only [sHashLoop, Option.some.injEq] at h; subst h; exact fun _ _ _ h => h
  | cons i is ih =>
    intro w w' h p pf v hp
    unfold sHashLoop at h
    split at h
    · cases h
    next pfx ch hh =>
      split at h
      · split at h
        · cases h
        next x w1 hr =>
          split at h
          · cases h
          next npfx ch2 hh2 =>
            obtain ⟨f1, _⟩ := sAppend_same (grow := grow) w s (ch i).suffix
            have h1 := hrec hr p pf v (by rw [f1]; exact hp)
            refine ih h p pf v ?_
            have : p ≠ p0 := by rintro rfl; rw [hh2] at h1; cases h1
            simp only [SWorld.write, if_neg this]; exact h1
      · exact ih h p pf v hp

theorem sUpdateHashes_keeps : ∀ (fuel : Nat) {s : Slice} {w w' : SWorld} {x : Hash32},
    sUpdateHashes grow H fuel s w = some (x, w') → ∀ p pf v, w.heap p = .leaf pf v → w'.heap p = .leaf pf v := by
  intro fuel
  induction fuel with
  | zero => intro s w w' x h; simp [sUpdateHashes] at h
  | succ fuel ih =>
    intro s w w' x h p pf v hp
    unfold sUpdateHashes at h
    split at h
    · cases h
    · split at h
      · simp only [Option.some.injEq, Prod.mk.injEq] at h
        rw [← h.2]; exact hp
      · split at h
        · cases h
        next w1 hl =>
          split at h
          · cases h
          next npfx ch hh =>
            rw [Option.map_eq_some_iff] at h
            obtain ⟨w2, hw2, h⟩ := h
            simp only [Prod.mk.injEq] at h
            obtain ⟨g1, g2, _⟩ := SWorld.put_get hw2
            rw [← h.2, g2]
            exact sHashLoop_keeps (fun hr => ih hr) _ hl p pf v hp

/-- The tree keeps the caller's own slice: what `GetEntry` returns after an effective put is that slice. -/
theorem C94_same_slice {vals w M a val w'} (h : SReach grow H vals w M) (hv : val.len ≠ 0)
    (hp : sPutEntry grow H a val w = some (true, w')) : ∃ w'', sGetEntry a w' = some (some val, w'') := by
  obtain ⟨⟨V, hR, r⟩, _⟩ := h.inv
  obtain ⟨b, w1, e1, e2, _, _, e5⟩ := sPutEntry_spec (grow := grow) ⟨V, hR, r⟩ a val
  rw [hp] at e1
  simp only [Option.some.injEq, Prod.mk.injEq] at e1
  obtain ⟨rfl, rfl⟩ := e1
  obtain ⟨k1, k2, k3, k4, k5, k6⟩ := sKey_inv hR a
  have k7 := sKey_rd w a
  have hleaf : LeafAt w' (keyNibs a) val := by
    unfold sPutEntry at hp
    split at hp
    · cases hp
    next changed w2 hu =>
      rw [Option.map_eq_some_iff] at hp
      obtain ⟨⟨x, w3⟩, h1, h2⟩ := hp
      simp only [Prod.mk.injEq] at h2
      obtain ⟨rfl, rfl⟩ := h2
      have hget := e5 w2 hu
      have hupd : sUpdate grow maxDepth .nil (sKey w a).1 val [] (sKey w a).2 = some w2 := by
        unfold sUpdateEntry at hu
        simp only at hu
        split at hu
        · split at hu
          · cases hu
          · simpa using hu
        · split at hu
          · split at hu
            · cases hu
            · simpa using hu
          · simpa using hu
      obtain ⟨p, pf, l1, l2⟩ := s_upd_leaf maxDepth hv k2 hupd
      rw [k7] at l1
      exact ⟨p, pf, by rw [hget]; exact l1, sUpdateHashes_keeps maxDepth h1 p pf val l2⟩
  obtain ⟨p, pf, l1, l2⟩ := hleaf
  unfold sGetEntry
  have k8 := sKey_rd w' a
  refine ⟨(sKey w' a).2, ?_⟩
  simp only [k8]
  have : (sKey w' a).2.store = w'.store := rfl
  rw [this, l1]
  have : (sKey w' a).2.heap = w'.heap := rfl
  simp only [this, l2]

/-- C94 fails: when the caller later writes to the slice it has put (or to one that `GetEntry` has returned), the entry
changes and the root hash does not: `Hash` still is the root hash of the old mapping. -/
theorem C94_violated {vals w M a val w'} (h : SReach grow H vals w M)
    (hp : sPutEntry grow H a val w = some (true, w')) {i : Nat} (hi : i < val.len) {b : UInt8}
    (hb : b ≠ vals val.arr (val.off + i)) :
    (∃ w'', sGetEntry a (w'.poke val.arr (val.off + i) b) = some (some val, w'') ∧ w''.rdv val ≠ w.rdv val ∧
      (w''.rdv val).length = val.len) ∧
    sHash H (w'.poke val.arr (val.off + i) b) = some (Spec.rootHash H (Spec.set M a (w.rdv val))) := by
  obtain ⟨w1, e1⟩ := C94_same_slice h (by omega) hp
  have hr := (h.put hp).inv
  have hv := h.inv.2
  constructor
  · have hsame : sGetEntry a (w'.poke val.arr (val.off + i) b) =
        (sGetEntry a w').map fun r => (r.1, r.2.poke val.arr (val.off + i) b) := by
      unfold sGetEntry
      have hk : sKey (w'.poke val.arr (val.off + i) b) a = ((sKey w' a).1, (sKey w' a).2.poke val.arr (val.off + i) b) := rfl
      rw [hk]
      simp only
      have h1 : ((sKey w' a).2.poke val.arr (val.off + i) b).rd (sKey w' a).1 = (sKey w' a).2.rd (sKey w' a).1 := rfl
      have h2 : ((sKey w' a).2.poke val.arr (val.off + i) b).store = (sKey w' a).2.store := rfl
      have h3 : ((sKey w' a).2.poke val.arr (val.off + i) b).heap = (sKey w' a).2.heap := rfl
      rw [h1, h2, h3]
      cases (sKey w' a).2.store.get ((sKey w' a).2.rd (sKey w' a).1) with
      | none => rfl
      | some p =>
        simp only
        cases (sKey w' a).2.heap p <;> rfl
    refine ⟨_, by rw [hsame, e1]; rfl, ?_, by simp⟩
    intro he
    have h0 : ∀ (w : SWorld) (s : Slice) (j : Nat), j < s.len → (w.rdv s)[j]? = some (w.vals s.arr (s.off + j)) := by
      intro w s j hj
      simp [SWorld.rdv, List.getElem?_map, List.getElem?_range hj]
    have h1 := h0 (w1.poke val.arr (val.off + i) b) val i hi
    rw [he, h0 w val i hi, hv] at h1
    simp only [SWorld.poke, and_self, if_true, Option.some.injEq] at h1
    exact hb h1.symm
  · have : sHash H (w'.poke val.arr (val.off + i) b) = sHash H w' := rfl
    rw [this]
    exact sHash_spec hr.1

/-! ## Examples -/

/-- Caller memory in which array 1 holds the bytes 1, 2, 3, ... -/
def exVals : Nat → Nat → UInt8 := fun _ x => UInt8.ofNat (x + 1)

/-- C93 and C94 speak about reachable states with entries: two keys with a long common prefix, one of them deleted again
(so that a branch is pruned), over a flushed overlay. -/
example : ∃ w w', SReach grow H exVals w (Spec.set (Spec.set (fun _ => []) exA [1, 2]) exB [3]) ∧
    sPutEntry grow H exB ⟨0, 0, 0, 0⟩ w = some (true, w') ∧
    SReach grow H exVals w' (Spec.set (Spec.set (Spec.set (fun _ => []) exA [1, 2]) exB [3]) exB []) := by
  have r0 : SReach grow H exVals (sNew exVals) (fun _ => []) := .fresh
  obtain ⟨b1, w1, e1, _⟩ := sPutEntry_spec (grow := grow) r0.inv.1 exA ⟨1, 0, 2, 2⟩
  have r1 := r0.put e1
  obtain ⟨b2, w2, e2, _⟩ := sPutEntry_spec (grow := grow) r1.inv.1 exB ⟨1, 2, 1, 1⟩
  have r2 := r1.put e2
  have hv : ∀ {w M} (s : Slice), SReach grow H exVals w M → w.rdv s = (sNew exVals).rdv s := by
    intro w M s h; exact rdv_same h.inv.2 s
  rw [hv _ r1] at r2
  have i1 : (sNew exVals).rdv ⟨1, 0, 2, 2⟩ = [1, 2] := by decide
  have i2 : (sNew exVals).rdv ⟨1, 2, 1, 1⟩ = [3] := by decide
  rw [i1, i2] at r2
  obtain ⟨b3, w3, e3, _, e4, _⟩ := sPutEntry_spec (grow := grow) r2.inv.1 exB ⟨0, 0, 0, 0⟩
  have hb : b3 = true := by
    rw [e4]; simp [Spec.set, SWorld.rdv]
  subst hb
  have r3 := r2.put e3
  exact ⟨w2, w3, r2, e3, by simpa [SWorld.rdv] using r3⟩

/-- In-place `append`s do happen: after this history the root's child suffix (40 nibbles) lies in the array of the pruned
branch (object 3, 39 nibbles), so `prune` has overwritten a nibble that was the suffix of that branch's first child. -/
example : ((sTrace (fun _ _ _ => 100) (fun _ => ⟨List.replicate 32 1, by decide⟩)
      [(exA, ⟨1, 0, 2, 2⟩), (exB, ⟨1, 2, 1, 1⟩), (exB, .nil)] (sNew exVals)).map fun r =>
    match r.2.heap 0, r.2.heap 3 with
    | .branch _ ch, .branch s _ => (ch 0).exist && (ch 0).suffix = { s with len := 40 } && s.len = 39
    | _, _ => false) = some true := by decide +kernel

end Nimiq.Tree
