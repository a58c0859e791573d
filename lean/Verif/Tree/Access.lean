import Verif.Tree.StoreCopy
import Verif.Tree.Cost
/-!
# C108: how often the tree calls its store

`counted I` is the store `I` with a counter of its calls. Whatever the store and however many entries the tree has,
`GetEntry` and `Hash` call it once and `PutEntry` at most 128 times.
-/
namespace Nimiq.Tree.Generic

variable {σ : Type} {I : Impl σ} {view : σ → Nibbles → Option Ptr} {H : Bytes → Hash32}

/-- The world without the counter. -/
def uncount (g : GWorld (σ × Nat)) : GWorld σ := ⟨g.heap, g.next, g.st.1⟩

/-- One call of a store, counted. -/
def tick {α} (m : GM σ α) : GM (σ × Nat) α := fun g =>
  match m (uncount g) with
  | none => none
  | some (a, g') => some (a, ⟨g'.heap, g'.next, (g'.st, g.st.2 + 1)⟩)

/-- The store `I` that counts the calls of its three methods. -/
def counted (I : Impl σ) : Impl (σ × Nat) where
  getNode k := tick (I.getNode k)
  putNode k p := tick (I.putNode k p)
  delNode k := tick (I.delNode k)

/-- Calls so far. -/
def calls (g : GWorld (σ × Nat)) : Nat := g.st.2

theorem counted_keeps (hI : KeepsPointers I view) : KeepsPointers (counted I) (fun s => view s.1) where
  get k w := by
    obtain ⟨s, h1, h2⟩ := hI.get k (uncount w)
    refine ⟨(s, w.st.2 + 1), ?_, h2⟩
    show tick (I.getNode k) w = _
    simp only [tick, h1]; rfl
  put k p w := by
    obtain ⟨s, h1, h2⟩ := hI.put k p (uncount w)
    refine ⟨(s, w.st.2 + 1), ?_, h2⟩
    show tick (I.putNode k p) w = _
    simp only [tick, h1]; rfl
  del k w := by
    obtain ⟨s, h1, h2⟩ := hI.del k (uncount w)
    refine ⟨(s, w.st.2 + 1), ?_, h2⟩
    show tick (I.delNode k) w = _
    simp only [tick, h1]; rfl

/-! ## A cost logic: the tree over `counted I` against the tree over a `MemStore` -/

/-- When `y` succeeds on the `MemStore` with result `b`, `x` succeeds with result `π b`, and the number `n` of its calls
satisfies `P b n`. -/
def CostM (view : σ → Nibbles → Option Ptr) {α β} (π : β → α) (x : GM (σ × Nat) α) (y : TM β) (P : β → Nat → Prop) : Prop :=
  ∀ g w b w', Sim (fun s => view s.1) g w → y w = some (b, w') →
    ∃ g' n, x g = some (π b, g') ∧ Sim (fun s => view s.1) g' w' ∧ calls g' = calls g + n ∧ P b n

theorem CostM.mono {α β} {π : β → α} {x : GM (σ × Nat) α} {y : TM β} {P Q : β → Nat → Prop} (h : CostM view π x y P)
    (hPQ : ∀ b n, P b n → Q b n) : CostM view π x y Q := by
  intro g w b w' hs hy
  obtain ⟨g', n, h1, h2, h3, h4⟩ := h g w b w' hs hy
  exact ⟨g', n, h1, h2, h3, hPQ _ _ h4⟩

theorem CostM.bind {α β γ δ} {π : β → α} {ρ : δ → γ} {x : GM (σ × Nat) α} {y : TM β} {f : α → GM (σ × Nat) γ} {f' : β → TM δ}
    {P : β → Nat → Prop} {Q : δ → Nat → Prop} (h : CostM view π x y P)
    (hf : ∀ b n, P b n → CostM view ρ (f (π b)) (f' b) (fun d m => Q d (n + m))) :
    CostM view ρ (x >>= f) (y >>= f') Q := by
  intro g w d w' hs hy
  rw [TM.bind_eq] at hy
  cases hyw : y w with
  | none => rw [hyw] at hy; simp at hy
  | some r =>
    obtain ⟨b, w1⟩ := r
    rw [hyw] at hy
    obtain ⟨g1, n, h1, h2, h3, h4⟩ := h g w b w1 hs hyw
    obtain ⟨g2, m, k1, k2, k3, k4⟩ := hf b n h4 g1 w1 d w' h2 hy
    refine ⟨g2, n + m, ?_, k2, by rw [k3, h3, Nat.add_assoc], k4⟩
    rw [GM.bind_eq, h1]
    exact k1

theorem CostM.pure {α β} {π : β → α} (b : β) {P : β → Nat → Prop} (hP : P b 0) :
    CostM view π (Pure.pure (π b) : GM (σ × Nat) α) (Pure.pure b : TM β) P := by
  intro g w b' w' hs hy
  simp only [Pure.pure, TM.pure, Option.some.injEq, Prod.mk.injEq] at hy
  obtain ⟨rfl, rfl⟩ := hy
  exact ⟨g, 0, rfl, hs, rfl, hP⟩

theorem CostM.panic {α β} {π : β → α} {x : GM (σ × Nat) α} {P : β → Nat → Prop} :
    CostM view π x (TM.panic : TM β) P := by
  intro g w b w' _ hy; simp [TM.panic] at hy

theorem CostM.ite {α β} {π : β → α} {c : Prop} [Decidable c] {x x' : GM (σ × Nat) α} {y y' : TM β} {P : β → Nat → Prop}
    (h : CostM view π x y P) (h' : CostM view π x' y' P) :
    CostM view π (if c then x else x') (if c then y else y') P := by
  split <;> assumption

/-- A step without a call. -/
theorem CostM.free {α} {x : GM (σ × Nat) α} {y : TM α} (h : SimM (fun s : σ × Nat => view s.1) x y)
    (hc : ∀ g a g', x g = some (a, g') → calls g' = calls g) : CostM view id x y (fun _ n => n = 0) := by
  intro g w b w' hs hy
  rcases h g w hs with ⟨_, h2⟩ | ⟨a, g', w1, h1, h2, hs'⟩
  · rw [h2] at hy; simp at hy
  · rw [h2] at hy
    simp only [Option.some.injEq, Prod.mk.injEq] at hy
    obtain ⟨rfl, rfl⟩ := hy
    exact ⟨g', 0, h1, hs', hc _ _ _ h1, rfl⟩

theorem cost_tick {α} {m : GM σ α} {y : TM α} (h : SimM (fun s : σ × Nat => view s.1) (tick m) y) :
    CostM view id (tick m) y (fun _ n => n = 1) := by
  intro g w b w' hs hy
  rcases h g w hs with ⟨_, h2⟩ | ⟨a, g', w1, h1, h2, hs'⟩
  · rw [h2] at hy; simp at hy
  · rw [h2] at hy
    simp only [Option.some.injEq, Prod.mk.injEq] at hy
    obtain ⟨rfl, rfl⟩ := hy
    refine ⟨g', 1, h1, hs', ?_, rfl⟩
    unfold tick at h1
    split at h1
    · simp at h1
    · simp only [Option.some.injEq, Prod.mk.injEq] at h1
      rw [← h1.2]; rfl

theorem cost_get (hI : KeepsPointers I view) (k : Nibbles) :
    CostM view id ((counted I).getNode k) (Tree.getNode k) (fun _ n => n = 1) := cost_tick (sim_getNode (counted_keeps hI) k)
theorem cost_put (hI : KeepsPointers I view) (k : Nibbles) (p : Ptr) :
    CostM view id ((counted I).putNode k p) (Tree.putNode k p) (fun _ n => n = 1) := cost_tick (sim_putNode (counted_keeps hI) k p)
theorem cost_del (hI : KeepsPointers I view) (k : Nibbles) :
    CostM view id ((counted I).delNode k) (Tree.delNode k) (fun _ n => n = 1) := cost_tick (sim_delNode (counted_keeps hI) k)

theorem cost_alloc (o : NodeObj) : CostM view id (alloc o : GM (σ × Nat) _) (Tree.alloc o) (fun _ n => n = 0) := by
  refine CostM.free (sim_alloc o) fun g a g' h => ?_
  simp only [alloc, Option.some.injEq, Prod.mk.injEq] at h
  rw [← h.2]; rfl
theorem cost_deref (p : Ptr) : CostM view id (deref p : GM (σ × Nat) _) (Tree.deref p) (fun _ n => n = 0) := by
  refine CostM.free (sim_deref p) fun g a g' h => ?_
  simp only [deref, Option.some.injEq, Prod.mk.injEq] at h
  rw [← h.2]
theorem cost_write (p : Ptr) (o : NodeObj) : CostM view id (write p o : GM (σ × Nat) _) (Tree.write p o) (fun _ n => n = 0) := by
  refine CostM.free (sim_write p o) fun g a g' h => ?_
  simp only [write, Option.some.injEq, Prod.mk.injEq] at h
  rw [← h.2]; rfl

theorem cost_asBranch (p : Ptr) : CostM view id (asBranch p : GM (σ × Nat) _) (Tree.asBranch p) (fun _ n => n = 0) := by
  refine CostM.bind (cost_deref p) fun o n hn => ?_
  cases o with
  | leaf a b => exact CostM.panic
  | branch a b => exact CostM.pure (π := id) (a, b) (by omega)

theorem cost_withChild (ch : Nib → Child) (s : Nibbles) (h : Hash32) :
    CostM view id (withChild ch s h : GM (σ × Nat) _) (Tree.withChild ch s h) (fun _ n => n = 0) := by
  cases s with
  | nil => exact CostM.panic
  | cons i s => exact CostM.pure (π := id) _ rfl

theorem cost_sliceFrom (l : Nibbles) (k : Nat) :
    CostM view id (sliceFrom l k : GM (σ × Nat) _) (Tree.sliceFrom l k) (fun _ n => n = 0) :=
  CostM.ite (CostM.pure (π := id) _ rfl) CostM.panic

theorem cost_invalidatePath : ∀ (path : List Ptr) (cur : Nibbles),
    CostM view id (invalidatePath cur path : GM (σ × Nat) _) (Tree.invalidatePath cur path) (fun _ n => n = 0)
  | [], _ => CostM.pure (π := id) _ rfl
  | p :: path, cur => by
    refine CostM.bind (cost_asBranch p) fun r n1 h1 => ?_
    obtain ⟨pfx, ch⟩ := r
    refine CostM.bind (cost_sliceFrom _ _) fun s n2 h2 => ?_
    refine CostM.bind (cost_withChild _ _ _) fun ch' n3 h3 => ?_
    refine CostM.bind (cost_write _ _) fun _ n4 h4 => ?_
    exact (cost_invalidatePath path pfx).mono fun _ _ h => by omega

theorem cost_prune (hI : KeepsPointers I view) : ∀ (path : List Ptr) (cur : Nibbles),
    CostM view id (prune (counted I) cur path) (Tree.prune cur path) (fun _ n => n ≤ 1)
  | [], cur => CostM.pure (π := id) _ (by omega)
  | p :: path, cur => by
    refine CostM.bind (cost_asBranch p) fun r n1 h1 => ?_
    obtain ⟨pfx, ch⟩ := r
    dsimp only [id]
    generalize List.drop (List.length pfx) cur = rest
    rcases rest with _ | ⟨i, rest⟩
    · exact CostM.panic
    · refine CostM.bind (cost_write _ _) fun _ n2 h2 => ?_
      generalize existing (setChild ch i { ch i with exist := false }) = ex
      have put : ∀ c, CostM view id ((counted I).putNode pfx p >>= fun _ => invalidatePath c path)
          (Tree.putNode pfx p >>= fun _ => Tree.invalidatePath c path) (fun _ n => n1 + (n2 + n) ≤ 1) := fun c =>
        CostM.bind (cost_put hI _ _) fun _ n3 h3 => (cost_invalidatePath _ _).mono fun _ _ h => by omega
      rcases ex with _ | ⟨c, _ | ⟨d, l⟩⟩
      · exact CostM.ite (put _) ((cost_prune hI path pfx).mono fun _ _ h => by omega)
      · refine CostM.ite ?_ (put _)
        exact CostM.bind (cost_del hI _) fun _ n3 h3 => (cost_invalidatePath _ _).mono fun _ _ h => by omega
      · exact put _

theorem cost_update (hI : KeepsPointers I view) (extra : Nat) :
    ∀ (fuel : Nat) (np pfx : Nibbles) (value : Bytes) (path : List Ptr),
    CostM view id (update (counted I) (fuel + extra) np pfx value path) (Tree.update fuel np pfx value path)
      (fun _ n => n ≤ fuel + 2)
  | 0, _, _, _, _ => CostM.panic
  | fuel + 1, np, pfx, value, path => by
    rw [show fuel + 1 + extra = (fuel + extra) + 1 by omega, update, Tree.update]
    refine CostM.ite ?_ (CostM.ite (CostM.ite ?_ ?_) ?_)
    · refine CostM.bind (cost_alloc _) fun leaf n1 h1 => ?_
      refine CostM.bind (cost_put hI _ _) fun _ n2 h2 => ?_
      refine CostM.bind (cost_sliceFrom _ _) fun s n3 h3 => ?_
      refine CostM.bind (cost_withChild _ _ _) fun ch' n4 h4 => ?_
      refine CostM.bind (cost_sliceFrom _ _) fun s n5 h5 => ?_
      refine CostM.bind (cost_withChild _ _ _) fun ch' n6 h6 => ?_
      refine CostM.bind (cost_alloc _) fun par n7 h7 => ?_
      refine CostM.bind (cost_put hI _ _) fun _ n8 h8 => ?_
      exact (cost_invalidatePath _ _).mono fun _ _ h => by omega
    · exact CostM.bind (cost_del hI _) fun _ n1 h1 => (cost_prune hI _ _).mono fun _ _ h => by omega
    · refine CostM.bind (cost_alloc _) fun leaf n1 h1 => ?_
      refine CostM.bind (cost_put hI _ _) fun _ n2 h2 => ?_
      exact (cost_invalidatePath _ _).mono fun _ _ h => by omega
    · refine CostM.bind (cost_get hI _) fun node n1 h1 => ?_
      cases node with
      | none => exact CostM.panic
      | some node =>
        refine CostM.bind (cost_asBranch node) fun r n2 h2 => ?_
        obtain ⟨npfx, ch⟩ := r
        dsimp only [id]
        generalize List.drop (List.length npfx) pfx = rest
        rcases rest with _ | ⟨i, rest⟩
        · exact CostM.panic
        · refine CostM.ite ((cost_update hI extra fuel _ _ _ _).mono fun _ _ h => by omega) ?_
          refine CostM.bind (cost_alloc _) fun leaf n3 h3 => ?_
          refine CostM.bind (cost_put hI _ _) fun _ n4 h4 => ?_
          refine CostM.bind (cost_asBranch _) fun r n5 h5 => ?_
          refine CostM.bind (cost_sliceFrom _ _) fun s n6 h6 => ?_
          refine CostM.bind (cost_withChild _ _ _) fun ch' n7 h7 => ?_
          refine CostM.bind (cost_write _ _) fun _ n8 h8 => ?_
          refine CostM.bind (cost_put hI _ _) fun _ n9 h9 => ?_
          exact (cost_invalidatePath _ _).mono fun _ _ h => by omega

theorem cost_hashLoop {rec : Nibbles → GM (σ × Nat) Hash32} {rec' : Nibbles → TM (Hash32 × List Bytes)}
    (hr : ∀ k, CostM view Prod.fst (rec k) (rec' k) (fun r n => n ≤ 2 * r.2.length)) (pfx : Nibbles) (p : Ptr) :
    ∀ (is : List Nib), CostM view (fun _ => ()) (hashLoop rec pfx p is) (Tree.hashLoopL rec' pfx p is)
      (fun l n => n ≤ 2 * l.length)
  | [] => CostM.pure (π := fun _ => ()) _ (by simp)
  | i :: is => by
    refine CostM.bind (cost_asBranch _) fun r n1 h1 => ?_
    obtain ⟨npfx, ch⟩ := r
    refine CostM.ite ?_ ((cost_hashLoop hr pfx p is).mono fun _ _ h => by omega)
    refine CostM.bind (hr _) fun r n2 h2 => ?_
    obtain ⟨h, l⟩ := r
    refine CostM.bind (cost_asBranch _) fun r n3 h3 => ?_
    refine CostM.bind (cost_write _ _) fun _ n4 h4 => ?_
    have hl := cost_hashLoop hr pfx p is
    rw [show hashLoop rec pfx p is = (hashLoop rec pfx p is >>= fun u => Pure.pure u) from ?_]
    · refine CostM.bind hl fun l' n5 h5 => ?_
      refine CostM.pure (π := fun _ => ()) (l ++ l') ?_
      simp only [List.length_append]
      simp only at h2
      omega
    · funext g
      rw [GM.bind_eq]
      cases hashLoop rec pfx p is g <;> rfl

theorem cost_updateHashes (hI : KeepsPointers I view) : ∀ (fuel : Nat) (k : Nibbles),
    CostM view Prod.fst (updateHashes (counted I) H fuel k) (Tree.updateHashesL H fuel k) (fun r n => n ≤ 2 * r.2.length)
  | 0, _ => CostM.panic
  | fuel + 1, k => by
    rw [updateHashes, Tree.updateHashesL]
    refine CostM.bind (cost_get hI _) fun node n1 h1 => ?_
    cases node with
    | none => exact CostM.panic
    | some p =>
      refine CostM.bind (cost_deref p) fun o n2 h2 => ?_
      cases o with
      | leaf lp v => exact CostM.pure (π := Prod.fst) (H (leafBytes lp v), [leafBytes lp v]) (by simp; omega)
      | branch _ _ =>
        refine CostM.bind (cost_hashLoop (cost_updateHashes hI fuel) _ _ _) fun l n3 h3 => ?_
        refine CostM.bind (cost_asBranch _) fun r n4 h4 => ?_
        refine CostM.bind (cost_put hI _ _) fun _ n5 h5 => ?_
        refine CostM.pure (π := Prod.fst) (H (branchBytes r.1 r.2), l ++ [branchBytes r.1 r.2]) ?_
        simp only [List.length_append, List.length_singleton]
        omega

/-! ## More fuel changes nothing -/

theorem update_more (extra : Nat) : ∀ (fuel : Nat) (np pfx : Nibbles) (value : Bytes) (path : List Ptr) {w w' : World} {u : Unit},
    Tree.update fuel np pfx value path w = some (u, w') → Tree.update (fuel + extra) np pfx value path w = some (u, w')
  | 0, _, _, _, _, _, _, _, h => by simp [Tree.update, TM.panic] at h
  | fuel + 1, np, pfx, value, path, w, w', u, h => by
    rw [show fuel + 1 + extra = (fuel + extra) + 1 by omega]
    rw [Tree.update] at h ⊢
    by_cases h1 : ¬ prefixOf np pfx
    · rw [if_pos h1] at h ⊢; exact h
    rw [if_neg h1] at h ⊢
    by_cases h2 : np = pfx
    · rw [if_pos h2] at h ⊢; exact h
    rw [if_neg h2] at h ⊢
    rw [TM.bind_eq] at h ⊢
    cases hg : Tree.getNode np w with
    | none => rw [hg] at h; simp at h
    | some r =>
      obtain ⟨node, w1⟩ := r
      rw [hg] at h
      cases node with
      | none => exact h
      | some node =>
        simp only [TM.bind_eq] at h ⊢
        cases ha : Tree.asBranch node w1 with
        | none => rw [ha] at h; simp at h
        | some r =>
          obtain ⟨⟨npfx, ch⟩, w2⟩ := r
          simp only [ha] at h ⊢
          generalize List.drop (List.length npfx) pfx = rest at h ⊢
          rcases rest with _ | ⟨i, rest⟩
          · exact h
          · by_cases he : (ch i).exist = true
            · simp only [if_pos he] at h ⊢
              exact update_more extra fuel _ _ _ _ h
            · simp only [if_neg he] at h ⊢
              exact h

/-! ## `PutEntry` -/

theorem put_calls (hI : KeepsPointers I view) {w : World} {M : Spec.Mapping} (inv : TreeInv H w M)
    (hz : ∀ x ∈ Spec.rootStrings H M, H x ≠ zeroHash) {g : GWorld (σ × Nat)} (hs : Sim (fun s => view s.1) g w)
    (a : Addr) (v : Bytes) : ∃ b g', putEntry (counted I) H a v g = some (b, g') ∧ calls g' ≤ calls g + 128 ∧
      (M a = v → calls g' ≤ calls g + 3) := by
  have hr := inv.wf.r
  have hroot : w.view [] ≠ none := by obtain ⟨ch, hb⟩ := inv.loc.root; rw [hb]; simp
  obtain ⟨b, l, w', e1, e2, e3⟩ := putEntryL_cost inv hz a v
  have hashes : ∀ {b : Bool} {g1 : GWorld (σ × Nat)} {w1 : World}, Sim (fun s => view s.1) g1 w1 →
      updateEntry (counted I) a v g = some (b, g1) → Tree.updateEntry a v w = some (b, w1) →
      ∃ b g', putEntry (counted I) H a v g = some (b, g') ∧ calls g' ≤ calls g1 + 2 * l.length := by
    intro b1 g1 w1 hs1 hu1 hu2
    simp only [putEntryL, TM.bind_eq, hu2] at e1
    cases hq : updateHashesL H maxDepth [] w1 with
    | none => rw [hq] at e1; simp at e1
    | some r =>
      obtain ⟨⟨hh, l2⟩, w2⟩ := r
      simp only [hq, Pure.pure, TM.pure, Option.some.injEq, Prod.mk.injEq] at e1
      obtain ⟨⟨_, rfl⟩, _⟩ := e1
      obtain ⟨g2, n, k1, k2, k3, k4⟩ := cost_updateHashes hI maxDepth [] g1 w1 _ w2 hs1 hq
      refine ⟨b1, g2, ?_, by simp only at k4; omega⟩
      rw [putEntry, GM.bind_eq, hu1]
      simp only [GM.bind_eq, k1]
      rfl
  -- the first call
  obtain ⟨g0, n0, a1, a2, a3, a4⟩ := cost_get hI (keyNibs a) g w _ w hs rfl
  simp only [id] at a1
  have noop : M a = v → updateEntry (counted I) a v g = some (false, g0) → Tree.updateEntry a v w = some (false, w) →
      ∃ b g', putEntry (counted I) H a v g = some (b, g') ∧ calls g' ≤ calls g + 128 ∧ (M a = v → calls g' ≤ calls g + 3) := by
    intro hv h1 h2
    obtain ⟨b2, g', k1, k2⟩ := hashes a2 h1 h2
    have := e3 hv
    exact ⟨b2, g', k1, by omega, fun _ => by omega⟩
  have change : M a ≠ v →
      (∀ g1, update (counted I) maxDepth [] (keyNibs a) v [] g0 = some ((), g1) → updateEntry (counted I) a v g = some (true, g1)) →
      (∀ w1, Tree.update maxDepth [] (keyNibs a) v [] w = some ((), w1) → Tree.updateEntry a v w = some (true, w1)) →
      ∃ b g', putEntry (counted I) H a v g = some (b, g') ∧ calls g' ≤ calls g + 128 ∧ (M a = v → calls g' ≤ calls g + 3) := by
    intro hv h1 h2
    have hdel : v = [] → w.view (keyNibs a) ≠ none := by
      rintro rfl
      rw [inv.map a, if_neg hv]; simp
    obtain ⟨V', f1, _⟩ := upd_spec inv.loc (value := v) (keyNibs_length a) hdel 41 [] [] (by simp) hroot rfl (.inl rfl)
    obtain ⟨w1, f2, _⟩ := sim_upd (ps := []) (ks := []) hr trivial f1
    have f3 : Tree.update maxDepth [] (keyNibs a) v [] w = some ((), w1) := update_more 23 41 _ _ _ _ f2
    obtain ⟨g1, n, k1, k2, k3, k4⟩ := cost_update hI 23 41 _ _ _ _ g0 w _ w1 a2 f2
    obtain ⟨b2, g', m1, m2⟩ := hashes k2 (h1 g1 k1) (h2 w1 f3)
    exact ⟨b2, g', m1, by omega, fun h => absurd h hv⟩
  have hm := inv.map a
  by_cases hM : M a = []
  · rw [if_pos hM] at hm
    have hg := hr.get_none hm
    rw [hg] at a1
    by_cases hv : v = []
    · apply noop (by rw [hM, hv])
      · simp only [updateEntry, GM.bind_eq, a1, hv]; rfl
      · simp [Tree.updateEntry, TM.bind_eq, Tree.getNode, hg, hv, Pure.pure, TM.pure]
    · have hvl : v.length ≠ 0 := fun h => hv (List.length_eq_zero_iff.mp h)
      apply change (by rw [hM]; exact Ne.symm hv)
      · intro g1 h
        simp only [updateEntry, GM.bind_eq, a1, hvl, if_false, h]
        rfl
      · intro w1 h
        simp only [Tree.updateEntry, TM.bind_eq, Tree.getNode, hg, hvl, if_false, h]
        rfl
  · rw [if_neg hM] at hm
    obtain ⟨p, hg, hh⟩ := hr.get hm
    rw [hg] at a1
    have hh' : g0.heap p = .leaf (keyNibs a) (M a) := by rw [a2.1]; exact hh
    by_cases hv : M a = v
    · apply noop hv
      · simp only [updateEntry, GM.bind_eq, a1, deref, hh', hv, if_true]
        rfl
      · simp only [Tree.updateEntry, TM.bind_eq, Tree.getNode, hg, Tree.deref, hh, hv, if_true]
        rfl
    · apply change hv
      · intro g1 h
        simp only [updateEntry, GM.bind_eq, a1, deref, hh', hv, if_false, h]
        rfl
      · intro w1 h
        simp only [Tree.updateEntry, TM.bind_eq, Tree.getNode, hg, Tree.deref, hh, hv, if_false, h]
        rfl

theorem cost_getEntry (hI : KeepsPointers I view) (a : Addr) :
    CostM view id (getEntry (counted I) a) (Tree.getEntry a) (fun _ n => n = 1) := by
  refine CostM.bind (cost_get hI _) fun node n1 h1 => ?_
  cases node with
  | none => exact CostM.pure (π := id) none (by omega)
  | some p =>
    refine CostM.bind (cost_deref p) fun o n2 h2 => ?_
    cases o with
    | leaf lp v => exact CostM.pure (π := id) (some v) (by omega)
    | branch _ _ => exact CostM.panic

/-- No node of the tree that holds `M` has the all-zero hash, which the code uses as its "not computed" mark. -/
def NoZeroHash (H : Bytes → Hash32) (M : Spec.Mapping) : Prop := ∀ x ∈ Spec.rootStrings H M, H x ≠ zeroHash

/-- **C108**: a tree on any store that keeps the pointers it is given, after any number of puts: `GetEntry` and `Hash` call
the store exactly once, `PutEntry` at most 128 times, and at most three times when the entry has that value already — however
many entries there are. -/
theorem C108_calls (hI : KeepsPointers I view) (g : GWorld (σ × Nat)) (hf : Fresh (fun s => view s.1) g)
    (puts : List (Addr × Bytes)) (hz : NoZeroHash H (Spec.final puts)) :
    ∃ g', runPuts (counted I) H puts g = some g' ∧
      (∀ a, ∃ r g'', getEntry (counted I) a g' = some (r, g'') ∧ calls g'' = calls g' + 1) ∧
      (∃ r g'', hash (counted I) H g' = some (r, g'') ∧ calls g'' = calls g' + 1) ∧
      (∀ a v, ∃ b g'', putEntry (counted I) H a v g' = some (b, g'') ∧ calls g'' ≤ calls g' + 128 ∧
        (Spec.final puts a = v → calls g'' ≤ calls g' + 3)) := by
  have hf' := hf
  obtain ⟨p, hp, hh, hv⟩ := hf'
  have hs := fresh_sim (view := fun s : σ × Nat => view s.1) hv
  obtain ⟨w', h1, inv⟩ := runPuts_spec (H := H) puts (fresh_inv hp hh)
  rw [← final_foldl] at inv
  obtain ⟨g', e1, e2⟩ := sim_runPuts (counted_keeps hI).ops puts g _ w' hs h1
  refine ⟨g', e1, fun a => ?_, ?_, fun a v => put_calls hI inv hz e2 a v⟩
  · have hc := cost_getEntry hI a
    obtain ⟨g'', n, k1, _, k3, k4⟩ := hc g' w' _ _ e2 (getEntry_spec inv a)
    exact ⟨_, g'', k1, by rw [k3, k4]⟩
  · have hc : CostM view id (hash (counted I) H) (Tree.hash H) (fun _ n => n = 1) := by
      refine CostM.bind (cost_get hI _) fun node n1 h1 => ?_
      cases node with
      | none => exact CostM.panic
      | some p =>
        refine CostM.bind (cost_asBranch p) fun r n2 h2 => ?_
        exact CostM.pure (π := id) _ (by omega)
    obtain ⟨g'', n, k1, _, k3, k4⟩ := hc g' w' _ _ e2 (hash_spec inv)
    exact ⟨_, g'', k1, by rw [k3, k4]⟩

theorem run_calls (hI : KeepsPointers I view) : ∀ (puts : List (Addr × Bytes)) {w : World} {M : Spec.Mapping}
    {g : GWorld (σ × Nat)}, TreeInv H w M → Sim (fun s => view s.1) g w →
    (∀ before, before <+: puts → NoZeroHash H (before.foldl (fun m p => Spec.set m p.1 p.2) M)) →
    ∃ g', runPuts (counted I) H puts g = some g' ∧ calls g' ≤ calls g + 128 * puts.length
  | [], _, _, g, _, _, _ => ⟨g, rfl, by simp⟩
  | (a, v) :: puts, w, M, g, inv, hs, hz => by
    obtain ⟨b, g1, k1, k2, _⟩ := put_calls hI inv (hz [] List.nil_prefix) hs a v
    obtain ⟨b2, w1, f1, f2, _⟩ := putEntry_spec inv a v
    rcases sim_putEntry (H := H) (counted_keeps hI).ops a v g w hs with ⟨_, h⟩ | ⟨r, g1', w1', h3, h4, hs1⟩
    · rw [f1] at h; simp at h
    rw [k1] at h3
    rw [f1] at h4
    simp only [Option.some.injEq, Prod.mk.injEq] at h3 h4
    obtain ⟨_, rfl⟩ := h3
    obtain ⟨_, rfl⟩ := h4
    obtain ⟨g', m1, m2⟩ := run_calls hI puts f2 hs1 (fun before hb => by
      have := hz ((a, v) :: before) (List.cons_prefix_cons.mpr ⟨rfl, hb⟩)
      exact this)
    refine ⟨g', by rw [runPuts, k1]; exact m1, ?_⟩
    simp only [List.length_cons]
    omega

/-- **C108**, whole histories: `n` puts into an empty tree make at most `128 n` calls. -/
theorem C108_history (hI : KeepsPointers I view) (g : GWorld (σ × Nat)) (hf : Fresh (fun s => view s.1) g)
    (puts : List (Addr × Bytes)) (hz : ∀ before, before <+: puts → NoZeroHash H (Spec.final before)) :
    ∃ g', runPuts (counted I) H puts g = some g' ∧ calls g' ≤ calls g + 128 * puts.length := by
  obtain ⟨p, hp, hh, hv⟩ := hf
  refine run_calls hI puts (fresh_inv hp hh) (fresh_sim (view := fun s : σ × Nat => view s.1) hv) ?_
  intro before hb
  have := hz before hb
  rw [final_foldl] at this
  exact this

/-- A hash function without zeros meets the hypothesis for every history (C108). -/
example : ∃ H : Bytes → Hash32, ∀ M, NoZeroHash H M := by
  refine ⟨fun _ => ⟨List.replicate 32 1, by simp⟩, fun M x _ h => ?_⟩
  have := congrArg (fun b : Hash32 => b.val.headD 0) h
  simp [zeroHash, BArr.zero, List.replicate] at this

/-- A new `MemStore` behind a counter is a fresh store (C108). -/
example : Fresh (fun s : GoMap Ptr × Nat => mget s.1)
    (⟨fun _ => .branch [] (fun _ => Child.zero), 1, ([([], 0)], 0)⟩ : GWorld (GoMap Ptr × Nat)) := by
  refine ⟨0, Nat.one_pos, rfl, ?_⟩
  intro k
  by_cases h : k = []
  · subst h; rfl
  · simp [mget, h, Ne.symm h]

end Nimiq.Tree.Generic
