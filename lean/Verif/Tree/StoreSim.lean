import Verif.Tree.StoreImpl
/-!
# C102: the tree over any store

Over a store that keeps the pointers it is given the tree behaves as over a `MemStore` (a simulation, step by step). Over a
store that copies nodes it does not: cached hashes are never invalidated.
-/
namespace Nimiq.Tree.Generic

variable {σ : Type} {I : Impl σ} {view : σ → Nibbles → Option Ptr} {H : Bytes → Hash32}

/-- The same nodes, and a `MemStore` with the same content. -/
def Sim (view : σ → Nibbles → Option Ptr) (g : GWorld σ) (w : World) : Prop :=
  g.heap = w.heap ∧ g.next = w.next ∧ ∃ m, w.store = .mem m ∧ ∀ k, view g.st k = mget m k

/-- Two computations do the same from similar states. -/
def SimM (view : σ → Nibbles → Option Ptr) {α} (x : GM σ α) (y : TM α) : Prop :=
  ∀ g w, Sim view g w → (x g = none ∧ y w = none) ∨
    ∃ a g' w', x g = some (a, g') ∧ y w = some (a, w') ∧ Sim view g' w'

theorem SimM.pure {α} (a : α) : SimM view (Pure.pure a : GM σ α) (Pure.pure a : TM α) :=
  fun g w h => .inr ⟨a, g, w, rfl, rfl, h⟩

theorem SimM.panic {α} : SimM view (GM.panic : GM σ α) (TM.panic : TM α) := fun _ _ _ => .inl ⟨rfl, rfl⟩

theorem SimM.bind {α β} {x : GM σ α} {y : TM α} {f : α → GM σ β} {f' : α → TM β} (h : SimM view x y)
    (hf : ∀ a, SimM view (f a) (f' a)) : SimM view (x >>= f) (y >>= f') := by
  intro g w hs
  rcases h g w hs with ⟨h1, h2⟩ | ⟨a, g', w', h1, h2, hs'⟩
  · left
    constructor
    · show GM.bind x f g = none
      simp only [GM.bind, h1]
    · show TM.bind y f' w = none
      simp only [TM.bind, h2]
  · have e1 : (x >>= f) g = f a g' := by show GM.bind x f g = _; simp only [GM.bind, h1]
    have e2 : (y >>= f') w = f' a w' := by show TM.bind y f' w = _; simp only [TM.bind, h2]
    rw [e1, e2]
    exact hf a g' w' hs'

theorem SimM.ite {α} {c : Prop} [Decidable c] {x x' : GM σ α} {y y' : TM α} (h : SimM view x y) (h' : SimM view x' y') :
    SimM view (if c then x else x') (if c then y else y') := by
  split <;> assumption

theorem sim_alloc (o : NodeObj) : SimM view (alloc o : GM σ Ptr) (Tree.alloc o) := by
  rintro g w ⟨h1, h2, h3⟩
  refine .inr ⟨g.next, _, _, rfl, by rw [Tree.alloc, h2], ?_⟩
  refine ⟨by simp only [h1, h2], by simp only [h2], h3⟩

theorem sim_deref (p : Ptr) : SimM view (deref p : GM σ NodeObj) (Tree.deref p) := by
  rintro g w ⟨h1, h2, h3⟩
  exact .inr ⟨g.heap p, _, _, rfl, by rw [Tree.deref, h1], h1, h2, h3⟩

theorem sim_write (p : Ptr) (o : NodeObj) : SimM view (write p o : GM σ Unit) (Tree.write p o) := by
  rintro g w ⟨h1, h2, h3⟩
  exact .inr ⟨(), _, _, rfl, rfl, by simp only [h1], h2, h3⟩

theorem sim_getNode (hI : KeepsPointers I view) (k : Nibbles) : SimM view (I.getNode k) (Tree.getNode k) := by
  rintro g w ⟨h1, h2, m, h3, h4⟩
  obtain ⟨s, e1, e2⟩ := hI.get k g
  refine .inr ⟨_, _, w, e1, ?_, h1, h2, m, h3, ?_⟩
  · rw [Tree.getNode, h3, h4]; rfl
  · intro q; show view s q = _; rw [e2, h4]

theorem sim_putNode (hI : KeepsPointers I view) (k : Nibbles) (p : Ptr) : SimM view (I.putNode k p) (Tree.putNode k p) := by
  rintro g w ⟨h1, h2, m, h3, h4⟩
  obtain ⟨s, e1, e2⟩ := hI.put k p g
  refine .inr ⟨(), _, { w with store := .mem (mput m k p) }, e1, ?_, h1, h2, _, rfl, ?_⟩
  · rw [Tree.putNode, h3]; rfl
  · intro q; show view s q = _; rw [e2, mget_mput]; simp only [h4]

theorem sim_delNode (hI : KeepsPointers I view) (k : Nibbles) : SimM view (I.delNode k) (Tree.delNode k) := by
  rintro g w ⟨h1, h2, m, h3, h4⟩
  obtain ⟨s, e1, e2⟩ := hI.del k g
  refine .inr ⟨(), _, { w with store := .mem (mdel m k) }, e1, ?_, h1, h2, _, rfl, ?_⟩
  · rw [Tree.delNode, h3]; rfl
  · intro q; show view s q = _; rw [e2, mget_mdel]; simp only [h4]

/-- The three methods do what those of a `MemStore` do, from similar states. -/
structure SimOps (I : Impl σ) (view : σ → Nibbles → Option Ptr) : Prop where
  get : ∀ k, SimM view (I.getNode k) (Tree.getNode k)
  put : ∀ k p, SimM view (I.putNode k p) (Tree.putNode k p)
  del : ∀ k, SimM view (I.delNode k) (Tree.delNode k)

theorem KeepsPointers.ops (hI : KeepsPointers I view) : SimOps I view := ⟨sim_getNode hI, sim_putNode hI, sim_delNode hI⟩

theorem sim_asBranch (p : Ptr) : SimM view (asBranch p : GM σ _) (Tree.asBranch p) := by
  refine SimM.bind (sim_deref p) fun o => ?_
  cases o
  · exact SimM.panic
  · exact SimM.pure _

theorem sim_withChild (ch : Nib → Child) (s : Nibbles) (h : Hash32) :
    SimM view (withChild ch s h : GM σ _) (Tree.withChild ch s h) := by
  cases s
  · exact SimM.panic
  · exact SimM.pure _

theorem sim_sliceFrom (l : Nibbles) (n : Nat) : SimM view (sliceFrom l n : GM σ _) (Tree.sliceFrom l n) :=
  SimM.ite (SimM.pure _) SimM.panic

theorem sim_invalidatePath : ∀ (path : List Ptr) (cur : Nibbles),
    SimM view (invalidatePath cur path : GM σ _) (Tree.invalidatePath cur path)
  | [], cur => SimM.pure _
  | p :: path, cur => by
    refine SimM.bind (sim_asBranch p) fun r => ?_
    obtain ⟨pfx, ch⟩ := r
    refine SimM.bind (sim_sliceFrom _ _) fun s => ?_
    refine SimM.bind (sim_withChild _ _ _) fun ch' => ?_
    refine SimM.bind (sim_write _ _) fun _ => ?_
    exact sim_invalidatePath path pfx

theorem sim_prune (hI : SimOps I view) : ∀ (path : List Ptr) (cur : Nibbles),
    SimM view (prune I cur path) (Tree.prune cur path)
  | [], cur => SimM.pure _
  | p :: path, cur => by
    refine SimM.bind (sim_asBranch p) fun r => ?_
    obtain ⟨pfx, ch⟩ := r
    dsimp only
    generalize List.drop (List.length pfx) cur = rest
    rcases rest with _ | ⟨i, rest⟩
    · exact SimM.panic
    · refine SimM.bind (sim_write _ _) fun _ => ?_
      generalize existing (setChild ch i { ch i with exist := false }) = ex
      rcases ex with _ | ⟨c, _ | ⟨d, l⟩⟩
      · refine SimM.ite ?_ ?_
        · exact SimM.bind (hI.put _ _) fun _ => sim_invalidatePath _ _
        · exact sim_prune hI path pfx
      · refine SimM.ite ?_ ?_
        · exact SimM.bind (hI.del _) fun _ => sim_invalidatePath _ _
        · exact SimM.bind (hI.put _ _) fun _ => sim_invalidatePath _ _
      · exact SimM.bind (hI.put _ _) fun _ => sim_invalidatePath _ _

theorem sim_update (hI : SimOps I view) : ∀ (fuel : Nat) (np pfx : Nibbles) (value : Bytes) (path : List Ptr),
    SimM view (update I fuel np pfx value path) (Tree.update fuel np pfx value path)
  | 0, _, _, _, _ => SimM.panic
  | fuel + 1, np, pfx, value, path => by
    rw [update, Tree.update]
    refine SimM.ite ?_ (SimM.ite (SimM.ite ?_ ?_) ?_)
    · refine SimM.bind (sim_alloc _) fun leaf => ?_
      refine SimM.bind (hI.put _ _) fun _ => ?_
      refine SimM.bind (sim_sliceFrom _ _) fun s => ?_
      refine SimM.bind (sim_withChild _ _ _) fun ch' => ?_
      refine SimM.bind (sim_sliceFrom _ _) fun s => ?_
      refine SimM.bind (sim_withChild _ _ _) fun ch' => ?_
      refine SimM.bind (sim_alloc _) fun par => ?_
      refine SimM.bind (hI.put _ _) fun _ => ?_
      exact sim_invalidatePath _ _
    · exact SimM.bind (hI.del _) fun _ => sim_prune hI _ _
    · refine SimM.bind (sim_alloc _) fun leaf => ?_
      refine SimM.bind (hI.put _ _) fun _ => ?_
      exact sim_invalidatePath _ _
    · refine SimM.bind (hI.get _) fun node => ?_
      cases node with
      | none => exact SimM.panic
      | some node =>
        refine SimM.bind (sim_asBranch node) fun r => ?_
        obtain ⟨npfx, ch⟩ := r
        dsimp only
        generalize List.drop (List.length npfx) pfx = rest
        rcases rest with _ | ⟨i, rest⟩
        · exact SimM.panic
        · refine SimM.ite (sim_update hI fuel _ _ _ _) ?_
          refine SimM.bind (sim_alloc _) fun leaf => ?_
          refine SimM.bind (hI.put _ _) fun _ => ?_
          refine SimM.bind (sim_asBranch _) fun r => ?_
          refine SimM.bind (sim_sliceFrom _ _) fun s => ?_
          refine SimM.bind (sim_withChild _ _ _) fun ch' => ?_
          refine SimM.bind (sim_write _ _) fun _ => ?_
          refine SimM.bind (hI.put _ _) fun _ => ?_
          exact sim_invalidatePath _ _

theorem sim_hashLoop {rec : Nibbles → GM σ Hash32} {rec' : Nibbles → TM Hash32} (hr : ∀ k, SimM view (rec k) (rec' k))
    (pfx : Nibbles) (p : Ptr) : ∀ (is : List Nib), SimM view (hashLoop rec pfx p is) (Tree.hashLoop rec' pfx p is)
  | [] => SimM.pure _
  | i :: is => by
    refine SimM.bind (sim_asBranch _) fun r => ?_
    obtain ⟨npfx, ch⟩ := r
    refine SimM.ite ?_ (sim_hashLoop hr pfx p is)
    refine SimM.bind (hr _) fun h => ?_
    refine SimM.bind (sim_asBranch _) fun r => ?_
    refine SimM.bind (sim_write _ _) fun _ => ?_
    exact sim_hashLoop hr pfx p is

theorem sim_updateHashes (hI : SimOps I view) : ∀ (fuel : Nat) (k : Nibbles),
    SimM view (updateHashes I H fuel k) (Tree.updateHashes H fuel k)
  | 0, _ => SimM.panic
  | fuel + 1, k => by
    refine SimM.bind (hI.get _) fun node => ?_
    cases node with
    | none => exact SimM.panic
    | some p =>
      refine SimM.bind (sim_deref p) fun o => ?_
      cases o with
      | leaf lp v => exact SimM.pure _
      | branch _ _ =>
        refine SimM.bind (sim_hashLoop (sim_updateHashes hI fuel) _ _ _) fun _ => ?_
        refine SimM.bind (sim_asBranch _) fun r => ?_
        refine SimM.bind (hI.put _ _) fun _ => ?_
        exact SimM.pure _

theorem sim_updateEntry (hI : SimOps I view) (a : Addr) (v : Bytes) :
    SimM view (updateEntry I a v) (Tree.updateEntry a v) := by
  refine SimM.bind (hI.get _) fun node => ?_
  have hu : SimM view (do update I maxDepth [] (keyNibs a) v []; return true)
      (do Tree.update maxDepth [] (keyNibs a) v []; return true) := SimM.bind (sim_update hI _ _ _ _ _) fun _ => SimM.pure _
  cases node with
  | none => exact SimM.ite (SimM.pure _) hu
  | some p =>
    refine SimM.bind (sim_deref p) fun o => ?_
    cases o with
    | leaf lp v' => exact SimM.ite (SimM.pure _) hu
    | branch _ _ => exact hu

theorem sim_putEntry (hI : SimOps I view) (a : Addr) (v : Bytes) :
    SimM view (putEntry I H a v) (Tree.putEntry H a v) :=
  SimM.bind (sim_updateEntry hI a v) fun _ => SimM.bind (sim_updateHashes hI _ _) fun _ => SimM.pure _

theorem sim_getEntry (hI : SimOps I view) (a : Addr) : SimM view (getEntry I a) (Tree.getEntry a) := by
  refine SimM.bind (hI.get _) fun node => ?_
  cases node with
  | none => exact SimM.pure _
  | some p =>
    refine SimM.bind (sim_deref p) fun o => ?_
    cases o with
    | leaf lp v => exact SimM.pure _
    | branch _ _ => exact SimM.panic

theorem sim_hash (hI : SimOps I view) : SimM view (hash I H) (Tree.hash H) := by
  refine SimM.bind (hI.get _) fun node => ?_
  cases node with
  | none => exact SimM.panic
  | some p => exact SimM.bind (sim_asBranch p) fun r => SimM.pure _

theorem sim_runPuts (hI : SimOps I view) : ∀ (puts : List (Addr × Bytes)) (g : GWorld σ) (w w' : World),
    Sim view g w → Tree.runPuts H puts w = some w' → ∃ g', runPuts I H puts g = some g' ∧ Sim view g' w'
  | [], g, w, w', hs, h => by
    simp only [Tree.runPuts, Option.some.injEq] at h
    exact ⟨g, rfl, h ▸ hs⟩
  | (a, v) :: puts, g, w, w', hs, h => by
    rw [Tree.runPuts] at h
    rcases sim_putEntry (H := H) hI a v g w hs with ⟨_, h2⟩ | ⟨b, g1, w1, h1, h2, hs1⟩
    · rw [h2] at h; simp at h
    · rw [h2] at h
      obtain ⟨g', e1, e2⟩ := sim_runPuts hI puts g1 w1 w' hs1 h
      exact ⟨g', by rw [runPuts, h1]; exact e1, e2⟩

/-- A store in the state of `NewMemStore()`: an empty branch at the root and nothing else. -/
def Fresh (view : σ → Nibbles → Option Ptr) (g : GWorld σ) : Prop :=
  ∃ p, p < g.next ∧ g.heap p = .branch [] (fun _ => Child.zero) ∧ ∀ k, view g.st k = if k = [] then some p else none

theorem fresh_inv {heap : Ptr → NodeObj} {next p : Ptr} (hp : p < next) (hh : heap p = .branch [] (fun _ => Child.zero)) :
    TreeInv H ⟨heap, next, .mem [([], p)]⟩ (fun _ => []) := by
  have hg : ∀ k q, (Store.mem [([], p)]).get k = some q → k = [] ∧ q = p := by
    intro k q h
    simp only [Store.get, mget] at h
    by_cases hk : k = []
    · subst hk; simp at h; exact ⟨rfl, h.symm⟩
    · simp [Ne.symm hk] at h
  have hv : (World.mk heap next (.mem [([], p)])).view =
      fun k => if k = [] then some (.branch [] fun _ => Child.zero) else none := by
    funext k
    by_cases h : k = []
    · subst h; simp [World.view, Store.get, mget, hh]
    · simp [World.view, Store.get, mget, h, Ne.symm h]
  refine ⟨⟨?_, ?_, ?_⟩, ?_, ?_, ?_⟩
  · simp [Store.Usable, NodupKeys]
  · intro k q h; rw [(hg k q h).2]; exact hp
  · intro k k' q h h'; rw [(hg k q h).1, (hg k' q h').1]
  · rw [hv]
    refine ⟨⟨fun _ => Child.zero, by simp [Br]⟩, ?_, ?_, ?_, ?_, ?_⟩
    · intro k p v h; split at h <;> simp at h
    · intro k p ch h
      split at h
      · rename_i hk; simp at h; subst hk; exact ⟨h.1, by simp⟩
      · simp at h
    · intro k ch i h hi
      unfold Br at h
      simp only at h
      split at h
      · simp only [Option.some.injEq, NodeObj.branch.injEq] at h
        rw [← h.2] at hi; simp [Child.zero] at hi
      · simp at h
    · intro k ch h hk; simp [Br, hk] at h
    · intro c h hc; simp [hc] at h
  · rw [hv]
    intro k ch i h hi
    unfold Br at h
    simp only at h
    split at h
    · simp only [Option.some.injEq, NodeObj.branch.injEq] at h
      rw [← h.2] at hi; simp [Child.zero] at hi
    · simp at h
  · intro a
    rw [hv]
    have : keyNibs a ≠ [] := by intro h; have := keyNibs_length a; rw [h] at this; simp at this
    simp [this]

theorem fresh_sim {g : GWorld σ} {p : Ptr} (h : ∀ k, view g.st k = if k = [] then some p else none) :
    Sim view g ⟨g.heap, g.next, .mem [([], p)]⟩ := by
  refine ⟨rfl, rfl, _, rfl, ?_⟩
  intro k
  rw [h]
  by_cases hk : k = []
  · subst hk; rfl
  · simp [mget, hk, Ne.symm hk]

/-- **C102**, for stores that keep pointers: on such a store, whatever it is, the tree never panics, is a last-write-wins map,
reports changes, and has the Merkle-Patricia hash of the mapping as its hash, after every sequence of puts. -/
theorem C102_any_pointer_store_partial (hI : KeepsPointers I view) (g : GWorld σ) (hf : Fresh view g)
    (puts : List (Addr × Bytes)) :
    ∃ g', runPuts I H puts g = some g' ∧
      (∀ a, ∃ g'', getEntry I a g' = some (if Spec.final puts a = [] then none else some (Spec.final puts a), g'')) ∧
      (∃ g'', hash I H g' = some (Spec.rootHash H (Spec.final puts), g'')) ∧
      (∀ a v, ∃ b g'', putEntry I H a v g' = some (b, g'') ∧ (b = true ↔ Spec.final puts a ≠ v)) := by
  obtain ⟨p, hp, hh, hv⟩ := hf
  have hs := fresh_sim hv
  obtain ⟨w', h1, inv⟩ := runPuts_spec (H := H) puts (fresh_inv hp hh)
  rw [← final_foldl] at inv
  obtain ⟨g', e1, e2⟩ := sim_runPuts hI.ops puts g _ w' hs h1
  refine ⟨g', e1, ?_, ?_, ?_⟩
  · intro a
    rcases sim_getEntry hI.ops a g' w' e2 with ⟨_, h⟩ | ⟨r, g'', w'', h3, h4, _⟩
    · rw [getEntry_spec inv] at h; simp at h
    · rw [getEntry_spec inv] at h4
      simp only [Option.some.injEq, Prod.mk.injEq] at h4
      exact ⟨g'', by rw [h3, h4.1]⟩
  · rcases sim_hash (H := H) hI.ops g' w' e2 with ⟨_, h⟩ | ⟨r, g'', w'', h3, h4, _⟩
    · rw [hash_spec inv] at h; simp at h
    · rw [hash_spec inv] at h4
      simp only [Option.some.injEq, Prod.mk.injEq] at h4
      exact ⟨g'', by rw [h3, h4.1]⟩
  · intro a v
    obtain ⟨b, w2, f1, _, f3⟩ := putEntry_spec inv a v
    rcases sim_putEntry (H := H) hI.ops a v g' w' e2 with ⟨_, h⟩ | ⟨r, g'', w'', h3, h4, _⟩
    · rw [f1] at h; simp at h
    · rw [f1] at h4
      simp only [Option.some.injEq, Prod.mk.injEq] at h4
      exact ⟨b, g'', by rw [h3, h4.1], f3⟩

end Nimiq.Tree.Generic
