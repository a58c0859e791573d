import Verif.Tree.StoreSim
/-!
# C102: instances — the stores of the package, overlays over any store, and a store that copies
-/
namespace Nimiq.Tree.Generic

variable {H : Bytes → Hash32}

/-! ## Stores that keep pointers -/

/-- store_mem.go:18-30 -/
def memStore : Impl (GoMap Ptr) where
  getNode k := fun w => some (mget w.st k, w)
  putNode k p := fun w => some ((), { w with st := mput w.st k p })
  delNode k := fun w => some ((), { w with st := mdel w.st k })

theorem C102_memStore : KeepsPointers memStore mget where
  get _ w := ⟨w.st, rfl, rfl⟩
  put k p w := ⟨mput w.st k p, rfl, funext fun _ => mget_mput _ _ _ _⟩
  del k w := ⟨mdel w.st k, rfl, funext fun _ => mget_mdel _ _ _⟩

/-- store_overlay.go:10-29 over an arbitrary lower store (with `diffs` made) -/
def overlayStore {σ : Type} (lower : Impl σ) : Impl (σ × GoMap (Option Ptr)) where
  getNode k := fun w =>
    match mget w.st.2 k with
    | some override => some (override, w)
    | none => (lower.getNode k ⟨w.heap, w.next, w.st.1⟩).map fun r => (r.1, ⟨r.2.heap, r.2.next, r.2.st, w.st.2⟩)
  putNode k p := fun w => some ((), { w with st := (w.st.1, mput w.st.2 k (some p)) })
  delNode k := fun w => some ((), { w with st := (w.st.1, mput w.st.2 k none) })

/-- An overlay over a store that keeps pointers keeps pointers. -/
theorem C102_overlayStore {σ : Type} {lower : Impl σ} {view : σ → Nibbles → Option Ptr} (h : KeepsPointers lower view) :
    KeepsPointers (overlayStore lower) (fun s k => (mget s.2 k).getD (view s.1 k)) where
  get k w := by
    obtain ⟨s, h1, h2⟩ := h.get k ⟨w.heap, w.next, w.st.1⟩
    cases hm : mget w.st.2 k with
    | some o => exact ⟨w.st, by simp only [overlayStore, hm]; rfl, rfl⟩
    | none =>
      refine ⟨(s, w.st.2), ?_, ?_⟩
      · simp only [overlayStore, hm, h1]; rfl
      · simp only [h2]
  put k p w := by
    refine ⟨(w.st.1, mput w.st.2 k (some p)), rfl, ?_⟩
    funext q
    simp only [mget_mput]
    split <;> simp
  del k w := by
    refine ⟨(w.st.1, mput w.st.2 k none), rfl, ?_⟩
    funext q
    simp only [mget_mput]
    split <;> simp

/-- The hypotheses are met by `NewMemStore()`. -/
example : Fresh mget (⟨fun _ => .branch [] (fun _ => Child.zero), 1, [([], 0)]⟩ : GWorld (GoMap Ptr)) := by
  refine ⟨0, Nat.one_pos, rfl, ?_⟩
  intro k
  by_cases h : k = []
  · subst h; rfl
  · simp [mget, h, Ne.symm h]

/-! ## A store that copies -/

theorem GM.bind_eq {σ α β} (m : GM σ α) (f : α → GM σ β) (w : GWorld σ) :
    (m >>= f) w = match m w with | none => none | some (a, w) => f a w := rfl
theorem GM.pure_eq {σ α} (a : α) (w : GWorld σ) : (Pure.pure a : GM σ α) w = some (a, w) := rfl

/-- The world after an allocation. -/
def push {σ} (g : GWorld σ) (o : NodeObj) : GWorld σ :=
  { g with heap := fun p => if p = g.next then o else g.heap p, next := g.next + 1 }

theorem alloc_eq {σ} (o : NodeObj) (g : GWorld σ) : alloc o g = some (g.next, push g o) := rfl

theorem copying_get {g : GWorld (GoMap NodeObj)} {k : Nibbles} {o : NodeObj} (h : mget g.st k = some o) :
    copying.getNode k g = some (some g.next, push g o) := by
  simp only [copying, h, alloc_eq, Option.map_some]

theorem copying_get_none {g : GWorld (GoMap NodeObj)} {k : Nibbles} (h : mget g.st k = none) :
    copying.getNode k g = some (none, g) := by
  simp only [copying, h]

theorem asBranch_at {σ} {g : GWorld σ} {p : Ptr} {pfx : Nibbles} {ch : Nib → Child} (h : g.heap p = .branch pfx ch) :
    asBranch p g = some ((pfx, ch), g) := by
  simp only [asBranch, GM.bind_eq, deref, h]; rfl

theorem push_heap {σ} (g : GWorld σ) (o : NodeObj) : (push g o).heap g.next = o := by simp [push]

theorem push_old {σ} (g : GWorld σ) (o : NodeObj) {p : Ptr} (h : p < g.next) : (push g o).heap p = g.heap p := by
  simp only [push]; rw [if_neg (Nat.ne_of_lt h)]

/-- No child needs a new hash: the loop does nothing. -/
theorem hashLoop_none {σ} {rec : Nibbles → GM σ Hash32} {k : Nibbles} {p : Ptr} {g : GWorld σ} {pfx : Nibbles}
    {ch : Nib → Child} (hp : g.heap p = .branch pfx ch) (hc : ∀ i, ¬ ((ch i).exist = true ∧ (ch i).hash = zeroHash)) :
    ∀ is : List Nib, hashLoop rec k p is g = some ((), g)
  | [] => rfl
  | i :: is => by
    simp only [hashLoop, GM.bind_eq, asBranch_at hp]
    rw [if_neg (hc i)]
    exact hashLoop_none hp hc is

theorem prefixOf_self (l : Nibbles) : prefixOf l l = true := by
  induction l with
  | nil => rfl
  | cons x xs ih => simp [prefixOf, ih]

theorem prefixOf_len {l m : Nibbles} (hl : l.length = m.length) (h : l ≠ m) : prefixOf l m = false := by
  cases hp : prefixOf l m with
  | false => rfl
  | true => exact absurd (((prefixOf_iff l m).mp hp).eq_of_length hl) h

theorem write_eq {σ} (p : Ptr) (o : NodeObj) (g : GWorld σ) :
    write p o g = some ((), { g with heap := fun q => if q = p then o else g.heap q }) := rfl

theorem put_eq (k : Nibbles) (p : Ptr) (g : GWorld (GoMap NodeObj)) :
    copying.putNode k p g = some ((), { g with st := mput g.st k (g.heap p) }) := rfl

/-- `invalidatePath` writes to the node it is given, not to the store. -/
theorem invalidate_one {σ} {g : GWorld σ} {p : Ptr} {ch : Nib → Child} (hp : g.heap p = .branch [] ch) (i : Nib)
    (s : Nibbles) : ∃ g', invalidatePath (i :: s) [p] g = some ((), g') ∧ g'.st = g.st := by
  simp only [invalidatePath, GM.bind_eq, asBranch_at hp, sliceFrom, List.length_nil, Nat.zero_le, if_true,
    GM.pure_eq, List.drop_zero, withChild, write_eq]
  exact ⟨_, rfl, rfl⟩

/-- The root of a stuck tree. -/
def oneChild (i : Nib) (k : Nibbles) (h : Hash32) : Nib → Child := setChild (fun _ => Child.zero) i ⟨k, h, true⟩

/-- The content of the copying store: a root whose only child is `a`'s leaf with hash `h`, and a leaf for every mapped key. -/
structure Stuck (a : Addr) (i : Nib) (h : Hash32) (M : Spec.Mapping) (g : GWorld (GoMap NodeObj)) : Prop where
  root : mget g.st [] = some (.branch [] (oneChild i (keyNibs a) h))
  leaf : ∀ b, mget g.st (keyNibs b) = if M b = [] then none else some (.leaf (keyNibs b) (M b))

theorem keyNibs_ne_nil (b : Addr) : keyNibs b ≠ [] := by
  intro h; have := keyNibs_length b; rw [h] at this; simp at this

/-- Below the root: the new leaf is stored, and a branch somewhere above it. -/
theorem update_below {a b : Addr} {i : Nib} {s t : Nibbles} (ha : keyNibs a = i :: s) (hb : keyNibs b = i :: t)
    {v : Bytes} (hv : v ≠ []) {g : GWorld (GoMap NodeObj)} {p : Ptr} {ch : Nib → Child}
    (hlt : p < g.next) (hp : g.heap p = .branch [] ch) (fuel : Nat) :
    ∃ g', update copying (fuel + 1) (keyNibs a) (keyNibs b) v [p] g = some ((), g') ∧
      mget g'.st [] = mget g.st [] ∧
      ∀ c, mget g'.st (keyNibs c) = if c = b then some (.leaf (keyNibs b) v) else mget g.st (keyNibs c) := by
  have hkb : ∀ c : Addr, (keyNibs c = keyNibs b) = (c = b) := fun c => propext ⟨keyNibs_inj, congrArg _⟩
  have hnil := (keyNibs_ne_nil b).symm
  by_cases hab : a = b
  · subst hab
    have hv' : ¬ v.length = 0 := fun h => hv (List.eq_nil_of_length_eq_zero h)
    have e : prefixOf (keyNibs a) (keyNibs a) = true := prefixOf_self _
    obtain ⟨g', e1, e2⟩ := invalidate_one (σ := GoMap NodeObj)
      (g := { push g (.leaf (keyNibs a) v) with st := mput g.st (keyNibs a) (.leaf (keyNibs a) v) }) (p := p) (ch := ch)
      ((push_old g _ hlt).trans hp) i s
    refine ⟨g', ?_, ?_, ?_⟩
    · simp only [update, e, not_true_eq_false, if_false, if_true, hv', GM.bind_eq, alloc_eq, put_eq, push_heap]
      rw [ha]; rw [ha] at e1; exact e1
    · rw [e2]; simp only [mget_mput]; rw [if_neg hnil]
    · intro c
      rw [e2]; simp only [mget_mput, hkb]
  · have hne : keyNibs a ≠ keyNibs b := fun h => hab (keyNibs_inj h)
    have e : prefixOf (keyNibs a) (keyNibs b) = false := prefixOf_len (by rw [keyNibs_length, keyNibs_length]) hne
    obtain ⟨a', b', h1, h2, h3⟩ := commonPrefix_split (keyNibs a) (keyNibs b)
    have hcp : ∃ r, commonPrefix (keyNibs a) (keyNibs b) = i :: r := by
      rw [ha, hb]; exact ⟨commonPrefix s t, by simp [commonPrefix]⟩
    obtain ⟨r, hr⟩ := hcp
    have la := keyNibs_length a
    have lb := keyNibs_length b
    have h4 : ∃ x xs y ys, a' = x :: xs ∧ b' = y :: ys := by
      rcases h3 with h3 | h3 | ⟨x, xs, y, ys, h3, h4, _⟩
      · subst h3
        have : b' = [] := by
          apply List.eq_nil_of_length_eq_zero
          have := congrArg List.length h1; have := congrArg List.length h2
          simp only [List.length_append, List.length_nil] at *; omega
        subst this
        rw [List.append_nil] at h1 h2
        exact absurd (h1.trans h2.symm) hne
      · subst h3
        have : a' = [] := by
          apply List.eq_nil_of_length_eq_zero
          have := congrArg List.length h1; have := congrArg List.length h2
          simp only [List.length_append, List.length_nil] at *; omega
        subst this
        rw [List.append_nil] at h1 h2
        exact absurd (h1.trans h2.symm) hne
      · exact ⟨x, xs, y, ys, h3, h4⟩
    obtain ⟨x, xs, y, ys, rfl, rfl⟩ := h4
    generalize hc : commonPrefix (keyNibs a) (keyNibs b) = cp at *
    have hcl : cp.length < 40 := by
      have := congrArg List.length h1
      simp only [List.length_append, List.length_cons] at this; omega
    have d1 : (keyNibs a).drop cp.length = x :: xs := by rw [h1]; simp
    have d2 : (keyNibs b).drop cp.length = y :: ys := by rw [h2]; simp
    generalize hch : setChild (setChild (fun _ => Child.zero) x ⟨x :: xs, zeroHash, true⟩) y ⟨y :: ys, zeroHash, true⟩ = ch2
    have k1 : cp.length ≤ (keyNibs a).length := by omega
    have k2 : cp.length ≤ (keyNibs b).length := by omega
    obtain ⟨g', e1, e2⟩ := invalidate_one (σ := GoMap NodeObj)
      (g := { push { push g (.leaf (keyNibs b) v) with st := mput g.st (keyNibs b) (.leaf (keyNibs b) v) } (.branch cp ch2)
              with st := mput (mput g.st (keyNibs b) (.leaf (keyNibs b) v)) cp (.branch cp ch2) }) (p := p) (ch := ch)
      (((push_old _ _ (Nat.lt_succ_of_lt hlt)).trans (push_old g _ hlt)).trans hp) i r
    have hcn : ¬ ([] : Nibbles) = cp := by rw [hr]; simp
    refine ⟨g', ?_, ?_, ?_⟩
    · simp only [update, e, Bool.false_eq_true, not_false_eq_true, if_true, GM.bind_eq, alloc_eq, put_eq, push_heap, hc,
        sliceFrom, k1, k2, d1, d2, GM.pure_eq, withChild, hch]
      rw [hr]; rw [hr] at e1; exact e1
    · rw [e2]; simp only [mget_mput]; rw [if_neg hcn, if_neg hnil]
    · intro c
      rw [e2]; simp only [mget_mput, hkb]
      rw [if_neg]
      intro h
      have := keyNibs_length c; rw [h] at this; omega

theorem oneChild_self (i k h) : oneChild i k h i = ⟨k, h, true⟩ := by simp [oneChild, setChild]

/-- The hashing pass finds nothing to do. -/
theorem hashes_stuck {i : Nib} {k : Nibbles} {h : Hash32} (hz : h ≠ zeroHash) {g : GWorld (GoMap NodeObj)}
    (hr : mget g.st [] = some (.branch [] (oneChild i k h))) (fuel : Nat) :
    ∃ r g', updateHashes copying H (fuel + 1) [] g = some (r, g') ∧ ∀ q, mget g'.st q = mget g.st q := by
  have hl : ∀ is : List Nib, hashLoop (updateHashes copying H fuel) [] g.next is
      (push g (.branch [] (oneChild i k h))) = some ((), push g (.branch [] (oneChild i k h))) := by
    intro is
    refine hashLoop_none (push_heap g _) ?_ is
    rintro j ⟨h1, h2⟩
    by_cases hj : j = i
    · subst hj; rw [oneChild_self] at h2; exact hz h2
    · simp [oneChild, setChild, hj, Child.zero] at h1
  simp only [updateHashes, GM.bind_eq, copying_get hr, deref, push_heap, hl, asBranch_at (push_heap g _), put_eq, GM.pure_eq]
  refine ⟨_, _, rfl, ?_⟩
  intro q
  simp only [mget_mput, push]
  split
  · rename_i h; rw [h]; exact hr.symm
  · rfl

/-- One more put below the same child of the root. -/
theorem stuck_put {a b : Addr} {i : Nib} {s t : Nibbles} {h : Hash32} {M : Spec.Mapping} (hz : h ≠ zeroHash)
    (ha : keyNibs a = i :: s) (hb : keyNibs b = i :: t) {v : Bytes} (hv : v ≠ []) {g : GWorld (GoMap NodeObj)}
    (S : Stuck a i h M g) :
    ∃ r g', putEntry copying H b v g = some (r, g') ∧ Stuck a i h (Spec.set M b v) g' := by
  have hv' : ¬ v.length = 0 := fun h => hv (List.eq_nil_of_length_eq_zero h)
  -- the update proper
  have key : ∀ g0 : GWorld (GoMap NodeObj), g0.st = g.st → ∃ g1, update copying maxDepth [] (keyNibs b) v [] g0 = some ((), g1) ∧
      Stuck a i h (Spec.set M b v) g1 := by
    intro g0 h0
    have hr0 : mget g0.st [] = some (.branch [] (oneChild i (keyNibs a) h)) := by rw [h0]; exact S.root
    obtain ⟨g1, e1, e2, e3⟩ := update_below ha hb hv (g := push g0 (.branch [] (oneChild i (keyNibs a) h))) (p := g0.next)
      (Nat.lt_succ_self _) (push_heap _ _) 62
    refine ⟨g1, ?_, ?_, ?_⟩
    · have hp : prefixOf [] (keyNibs b) = true := by simp [prefixOf]
      have hn := (keyNibs_ne_nil b).symm
      have hd : (keyNibs b).drop ([] : Nibbles).length = i :: t := by rw [← hb]; rfl
      unfold maxDepth update
      simp only [hp, not_true_eq_false, if_false, hn, GM.bind_eq, copying_get hr0, asBranch_at (push_heap g0 _), hd,
        oneChild_self, if_true, List.nil_append]
      exact e1
    · rw [e2]; exact hr0
    · intro c
      rw [e3]
      simp only [push, h0, S.leaf, Spec.set]
      by_cases hcb : c = b
      · subst hcb; simp [hv]
      · simp [hcb]
  have fin : ∀ g1, Stuck a i h (Spec.set M b v) g1 → ∃ r g', updateHashes copying H maxDepth [] g1 = some (r, g') ∧
      Stuck a i h (Spec.set M b v) g' := by
    intro g1 S1
    obtain ⟨r, g', e1, e2⟩ := hashes_stuck (H := H) hz S1.root 63
    exact ⟨r, g', e1, by rw [e2]; exact S1.root, fun c => by rw [e2]; exact S1.leaf c⟩
  by_cases hM : M b = []
  · have hg : mget g.st (keyNibs b) = none := by rw [S.leaf, if_pos hM]
    obtain ⟨g1, f1, f2⟩ := key g rfl
    obtain ⟨r, g', f3, f4⟩ := fin g1 f2
    refine ⟨true, g', ?_, f4⟩
    simp only [putEntry, updateEntry, GM.bind_eq, copying_get_none hg, hv', if_false, f1, GM.pure_eq, f3]
  · have hg : mget g.st (keyNibs b) = some (.leaf (keyNibs b) (M b)) := by rw [S.leaf, if_neg hM]
    by_cases he : M b = v
    · have hset : Spec.set M b v = M := by
        funext c; simp only [Spec.set]; split
        · rename_i h; rw [h, he]
        · rfl
      obtain ⟨r, g', f3, f4⟩ := fin (push g (.leaf (keyNibs b) (M b))) (by rw [hset]; exact ⟨S.root, S.leaf⟩)
      refine ⟨false, g', ?_, f4⟩
      simp only [putEntry, updateEntry, GM.bind_eq, copying_get hg, deref, push_heap, he, if_true, GM.pure_eq]
      rw [he] at f3
      simp only [f3]
    · obtain ⟨g1, f1, f2⟩ := key (push g (.leaf (keyNibs b) (M b))) rfl
      obtain ⟨r, g', f3, f4⟩ := fin g1 f2
      refine ⟨true, g', ?_, f4⟩
      simp only [putEntry, updateEntry, GM.bind_eq, copying_get hg, deref, push_heap, he, if_false, f1, GM.pure_eq, f3]

theorem setChild_oneChild (i : Nib) (k : Nibbles) (x h : Hash32) :
    setChild (oneChild i k x) i { oneChild i k x i with hash := h } = oneChild i k h := by
  rw [oneChild_self]
  funext j
  by_cases hj : j = i
  · subst hj; simp [oneChild, setChild]
  · simp [oneChild, setChild, hj]

/-- The loop of the hashing pass over a root with one child. -/
theorem hashLoop_one {rec : Nibbles → GM (GoMap NodeObj) Hash32} {st : GoMap NodeObj} {p : Ptr} {i : Nib} {k : Nibbles}
    {h : Hash32}
    (hrec : ∀ g : GWorld (GoMap NodeObj), g.st = st → p < g.next → ∃ g', rec k g = some (h, g') ∧ g'.st = st ∧ p < g'.next ∧
      g'.heap p = g.heap p) :
    ∀ (is : List Nib) (x : Hash32) (g : GWorld (GoMap NodeObj)), (x = zeroHash ∨ x = h) → g.st = st → p < g.next →
      g.heap p = .branch [] (oneChild i k x) →
      ∃ x' g', hashLoop rec [] p is g = some ((), g') ∧ g'.st = st ∧ g'.heap p = .branch [] (oneChild i k x') ∧
        (x = h ∨ i ∈ is → x' = h)
  | [], x, g, _, hs, _, hp => ⟨x, g, rfl, hs, hp, fun h => h.elim id (fun h => by simp at h)⟩
  | j :: is, x, g, hx, hs, hlt, hp => by
    simp only [hashLoop, GM.bind_eq, asBranch_at hp]
    by_cases hj : j = i
    · subst hj
      simp only [oneChild_self, true_and]
      by_cases hz : x = zeroHash
      · rw [if_pos hz]
        obtain ⟨g1, e1, e2, e3, e4⟩ := hrec g hs hlt
        simp only [GM.bind_eq, List.nil_append, e1, asBranch_at (e4.trans hp), write_eq]
        obtain ⟨x', g', f1, f2, f3, f4⟩ := hashLoop_one (i := j) hrec is h
          { g1 with heap := fun q => if q = p then .branch [] (oneChild j k h) else g1.heap q } (.inr rfl) e2 e3 (by simp)
        exact ⟨x', g', by rw [← f1, ← setChild_oneChild j k x h, oneChild_self], f2, f3, fun _ => f4 (.inl rfl)⟩
      · rw [if_neg hz]
        have hx' : x = h := hx.resolve_left hz
        obtain ⟨x', g', f1, f2, f3, f4⟩ := hashLoop_one hrec is x g hx hs hlt hp
        exact ⟨x', g', f1, f2, f3, fun _ => f4 (.inl hx')⟩
    · have hne : (oneChild i k x j).exist = false := by simp [oneChild, setChild, hj, Child.zero]
      rw [hne]
      simp only [Bool.false_eq_true, false_and, if_false]
      obtain ⟨x', g', f1, f2, f3, f4⟩ := hashLoop_one hrec is x g hx hs hlt hp
      exact ⟨x', g', f1, f2, f3, fun h => f4 (h.imp id (fun h => by simpa [Ne.symm hj] using h))⟩

theorem hashes_leaf {g : GWorld (GoMap NodeObj)} {k p : Nibbles} {v : Bytes} (h : mget g.st k = some (.leaf p v)) (fuel : Nat) :
    updateHashes copying H (fuel + 1) k g = some (H (leafBytes p v), push g (.leaf p v)) := by
  simp only [updateHashes, GM.bind_eq, copying_get h, deref, push_heap, objHash]
  rfl

/-- The first put works. -/
theorem first_put {a : Addr} {i : Nib} {s : Nibbles} (ha : keyNibs a = i :: s) {v : Bytes} (hv : v ≠ []) :
    ∃ r g', putEntry copying H a v newCopying = some (r, g') ∧
      Stuck a i (H (leafBytes (keyNibs a) v)) (Spec.final [(a, v)]) g' := by
  have hv' : ¬ v.length = 0 := fun h => hv (List.eq_nil_of_length_eq_zero h)
  have hn := (keyNibs_ne_nil a).symm
  have hg : mget newCopying.st (keyNibs a) = none := by simp [newCopying, mget, hn]
  have hr : mget newCopying.st [] = some (.branch [] fun _ => Child.zero) := rfl
  have hp : prefixOf [] (keyNibs a) = true := by simp [prefixOf]
  have hd : (keyNibs a).drop ([] : Nibbles).length = i :: s := by rw [← ha]; rfl
  -- the state before the hashing pass
  obtain ⟨g1, e1, e2, e3⟩ : ∃ g1, update copying maxDepth [] (keyNibs a) v [] newCopying = some ((), g1) ∧
      mget g1.st [] = some (.branch [] (oneChild i (keyNibs a) zeroHash)) ∧
      ∀ b, mget g1.st (keyNibs b) = if b = a then some (.leaf (keyNibs a) v) else none := by
    unfold maxDepth update
    have hpo : (push (push newCopying (.branch [] fun _ => Child.zero)) (.leaf (keyNibs a) v)).heap newCopying.next =
        .branch [] (fun _ => Child.zero) := by
      rw [push_old _ _ (Nat.lt_succ_self _), push_heap]
    have hz : (Child.zero).exist = false := rfl
    simp only [hp, not_true_eq_false, if_false, hn, GM.bind_eq, copying_get hr, asBranch_at (push_heap newCopying _), hd,
      hz, Bool.false_eq_true, alloc_eq, put_eq, push_heap]
    rw [asBranch_at (by exact hpo)]
    simp only [sliceFrom, List.length_nil, Nat.zero_le, if_true, List.drop_zero, GM.pure_eq, ha, withChild, write_eq,
      invalidatePath]
    refine ⟨_, rfl, ?_, ?_⟩
    · simp only [mget_mput, if_true]; rfl
    · intro b
      simp only [mget_mput]
      rw [if_neg (keyNibs_ne_nil b)]
      have hkb : (keyNibs b = i :: s) = (b = a) := by rw [← ha]; exact propext ⟨keyNibs_inj, congrArg _⟩
      simp only [hkb]
      by_cases hba : b = a
      · simp [hba]
      · rw [if_neg hba, if_neg hba]
        have : ¬ ([] : Nibbles) = keyNibs b := (keyNibs_ne_nil b).symm
        simp [push, newCopying, mget, this]
  -- the hashing pass
  have hleaf : ∀ g : GWorld (GoMap NodeObj), g.st = g1.st → g1.next < g.next →
      ∃ g', updateHashes copying H 63 (keyNibs a) g = some (H (leafBytes (keyNibs a) v), g') ∧ g'.st = g1.st ∧
        g1.next < g'.next ∧ g'.heap g1.next = g.heap g1.next := by
    intro g hs hlt
    have : mget g.st (keyNibs a) = some (.leaf (keyNibs a) v) := by rw [hs, e3, if_pos rfl]
    exact ⟨push g (.leaf (keyNibs a) v), hashes_leaf this 62, hs, Nat.lt_succ_of_lt hlt, push_old _ _ hlt⟩
  obtain ⟨x', g2, f1, f2, f3, f4⟩ := hashLoop_one (i := i) hleaf (List.finRange 16) zeroHash
    (push g1 (.branch [] (oneChild i (keyNibs a) zeroHash))) (.inl rfl) rfl (Nat.lt_succ_self _) (push_heap _ _)
  have hx := f4 (.inr (List.mem_finRange i))
  subst hx
  have hfin : ∀ b, Spec.final [(a, v)] b = if b = a then v else [] := by
    intro b
    by_cases h : b = a
    · subst h; simp [Spec.final]
    · simp [Spec.final, h, Ne.symm h]
  have he : updateHashes copying H maxDepth [] g1 = some (objHash H (.branch [] (oneChild i (keyNibs a) (H (leafBytes (keyNibs a) v)))),
      { g2 with st := mput g2.st [] (.branch [] (oneChild i (keyNibs a) (H (leafBytes (keyNibs a) v)))) }) := by
    unfold maxDepth updateHashes
    simp only [GM.bind_eq, copying_get e2, deref, push_heap, f1, asBranch_at f3, put_eq, f3]
    rfl
  refine ⟨true, { g2 with st := mput g2.st [] (.branch [] (oneChild i (keyNibs a) (H (leafBytes (keyNibs a) v)))) }, ?_, ?_, ?_⟩
  · simp only [putEntry, updateEntry, GM.bind_eq, copying_get_none hg, hv', if_false, e1, GM.pure_eq, he]
  · simp only [mget_mput, if_true]
  · intro b
    simp only [mget_mput]
    rw [if_neg (keyNibs_ne_nil b), f2, e3, hfin]
    by_cases h : b = a
    · subst h; simp [hv]
    · simp [h]

/-- The hash of a stuck tree is the one of the first entry alone. -/
theorem stuck_hash {a : Addr} {i : Nib} {s : Nibbles} (ha : keyNibs a = i :: s) {v : Bytes} (hv : v ≠ []) {M : Spec.Mapping}
    {g : GWorld (GoMap NodeObj)} (S : Stuck a i (H (leafBytes (keyNibs a) v)) M g) :
    ∃ g', hash copying H g = some (Spec.rootHash H (Spec.final [(a, v)]), g') := by
  have hn := keyNibs_ne_nil a
  generalize hch : oneChild i (keyNibs a) (H (leafBytes (keyNibs a) v)) = ch
  let V : View := fun k => if k = [] then some (.branch [] ch) else if k = keyNibs a then some (.leaf (keyNibs a) v) else none
  have hbr : ∀ {k c}, Br V k c → k = [] ∧ c = ch := by
    intro k c h
    unfold Br at h
    simp only [V] at h
    split at h
    · simp only [Option.some.injEq, NodeObj.branch.injEq] at h; exact ⟨h.1.symm, h.2.symm⟩
    · split at h <;> simp at h
  have hex : ∀ j, (ch j).exist = true → j = i ∧ ch j = ⟨keyNibs a, H (leafBytes (keyNibs a) v), true⟩ := by
    intro j hj
    rw [← hch] at hj ⊢
    by_cases h : j = i
    · subst h; exact ⟨rfl, oneChild_self _ _ _⟩
    · simp [oneChild, setChild, h, Child.zero] at hj
  have hVa : V (keyNibs a) = some (.leaf (keyNibs a) v) := by simp [V, hn]
  have L : Loc V := by
    refine ⟨⟨ch, by simp [Br, V]⟩, ?_, ?_, ?_, ?_, ?_⟩
    · intro k p w h
      simp only [V] at h
      split at h
      · simp at h
      · split at h
        · rename_i hk
          simp only [Option.some.injEq, NodeObj.leaf.injEq] at h
          rw [hk, ← h.1, ← h.2]; exact ⟨rfl, keyNibs_length a, hv⟩
        · simp at h
    · intro k p c h
      simp only [V] at h
      split at h
      · rename_i hk
        simp only [Option.some.injEq, NodeObj.branch.injEq] at h
        rw [hk, ← h.1]; simp
      · split at h <;> simp at h
    · intro k c j h hj
      obtain ⟨rfl, rfl⟩ := hbr h
      obtain ⟨rfl, e⟩ := hex j hj
      rw [e]
      refine ⟨⟨s, ha⟩, ?_⟩
      rw [List.nil_append, hVa]; simp
    · intro k c h hk; exact absurd (hbr h).1 hk
    · intro c h hc
      have : c = keyNibs a := by
        simp only [V, hc, if_false] at h
        by_cases e : c = keyNibs a
        · exact e
        · simp [e] at h
      subst this
      refine ⟨[], ch, i, by simp [Br, V], ?_, ?_⟩ <;> rw [← hch, oneChild_self]
      rfl
  have C : Clean H V := by
    intro k c j h hj
    obtain ⟨rfl, rfl⟩ := hbr h
    obtain ⟨rfl, e⟩ := hex j hj
    unfold LinkOK
    rw [e]
    intro o ho
    rw [List.nil_append, hVa] at ho
    obtain rfl := Option.some.inj ho
    rfl
  have hM : ∀ b, V (keyNibs b) = if Spec.final [(a, v)] b = [] then none else some (.leaf (keyNibs b) (Spec.final [(a, v)] b)) := by
    intro b
    simp only [V]
    rw [if_neg (keyNibs_ne_nil b)]
    by_cases h : b = a
    · subst h; simp [Spec.final, hv]
    · have : keyNibs b ≠ keyNibs a := fun e => h (keyNibs_inj e)
      simp [Spec.final, Ne.symm h, this]
  rw [← root_hash L C hM (ch := ch) (by simp [Br, V])]
  have hr := S.root
  rw [hch] at hr
  simp only [hash, GM.bind_eq, copying_get hr, asBranch_at (push_heap g _)]
  exact ⟨_, rfl⟩

theorem stuck_get {a : Addr} {i : Nib} {h : Hash32} {M : Spec.Mapping} {g : GWorld (GoMap NodeObj)} (S : Stuck a i h M g)
    (b : Addr) : ∃ g', getEntry copying b g = some (if M b = [] then none else some (M b), g') := by
  have hl := S.leaf b
  by_cases hM : M b = []
  · rw [if_pos hM] at hl
    simp only [getEntry, GM.bind_eq, copying_get_none hl, hM, if_true]
    exact ⟨_, rfl⟩
  · rw [if_neg hM] at hl
    simp only [getEntry, GM.bind_eq, copying_get hl, deref, push_heap, hM, if_false]
    exact ⟨_, rfl⟩

theorem stuck_run {a : Addr} {i : Nib} {s : Nibbles} (ha : keyNibs a = i :: s) {h : Hash32} (hz : h ≠ zeroHash) :
    ∀ (puts : List (Addr × Bytes)) (M : Spec.Mapping) (g : GWorld (GoMap NodeObj)),
      (∀ e ∈ puts, e.2 ≠ [] ∧ (keyNibs e.1).head? = some i) → Stuck a i h M g →
      ∃ g', runPuts copying H puts g = some g' ∧ Stuck a i h (puts.foldl (fun M e => Spec.set M e.1 e.2) M) g'
  | [], _, g, _, S => ⟨g, rfl, S⟩
  | (b, v) :: puts, M, g, hp, S => by
    obtain ⟨h1, h2⟩ := hp (b, v) (by simp)
    obtain ⟨t, ht⟩ : ∃ t, keyNibs b = i :: t := by
      simp only at h2
      cases hb : keyNibs b with
      | nil => rw [hb] at h2; simp at h2
      | cons j t => rw [hb] at h2; simp at h2; exact ⟨t, by rw [h2]⟩
    obtain ⟨r, g1, e1, S1⟩ := stuck_put (H := H) hz ha ht h1 S
    obtain ⟨g', e2, S2⟩ := stuck_run ha hz puts _ g1 (fun e he => hp e (by simp [he])) S1
    exact ⟨g', by simp only [runPuts, e1, e2], S2⟩

/-- **C102 is violated** by stores that copy nodes — what any store on disk does.  Over such a store, whatever the hash function
(unless it maps the leaf to 32 zero bytes), after the first entry every further non-empty entry whose key begins with the same
hex digit leaves the root hash as it was: the tree gives back every entry and still has the hash of the first entry alone.
`invalidatePath` changes the nodes it holds and does not put them back. -/
theorem C102_copying_violated (a : Addr) (v : Bytes) (hv : v ≠ []) (hz : H (Spec.leafEnc (Spec.nibbles a) v) ≠ zeroHash)
    (puts : List (Addr × Bytes)) (hp : ∀ e ∈ puts, e.2 ≠ [] ∧ (Spec.nibbles e.1).head? = (Spec.nibbles a).head?) :
    ∃ g, runPuts copying H ((a, v) :: puts) newCopying = some g ∧
      (∀ b, ∃ g', getEntry copying b g = some (if Spec.final ((a, v) :: puts) b = [] then none
        else some (Spec.final ((a, v) :: puts) b), g')) ∧
      (∃ g', hash copying H g = some (Spec.rootHash H (Spec.final [(a, v)]), g')) := by
  rw [← keyNibs_eq, ← leafBytes_eq] at hz
  obtain ⟨i, s, ha⟩ : ∃ i s, keyNibs a = i :: s := by
    cases h : keyNibs a with
    | nil => exact absurd h (keyNibs_ne_nil a)
    | cons i s => exact ⟨i, s, rfl⟩
  have hp' : ∀ e ∈ puts, e.2 ≠ [] ∧ (keyNibs e.1).head? = some i := by
    intro e he
    obtain ⟨h1, h2⟩ := hp e he
    rw [← keyNibs_eq, ← keyNibs_eq, ha] at h2
    exact ⟨h1, h2⟩
  obtain ⟨r, g1, e1, S1⟩ := first_put (H := H) ha hv
  obtain ⟨g, e2, S⟩ := stuck_run (H := H) ha hz puts _ g1 hp' S1
  have hM : puts.foldl (fun M e => Spec.set M e.1 e.2) (Spec.final [(a, v)]) = Spec.final ((a, v) :: puts) := by
    rw [final_foldl ((a, v) :: puts), final_foldl [(a, v)]]; rfl
  rw [hM] at S
  exact ⟨g, by simp only [runPuts, e1, e2], stuck_get S, stuck_hash ha hv S⟩

/-- So the hash is wrong, or two of the strings that are hashed collide. -/
theorem C102_copying_wrong_hash (a : Addr) (v : Bytes) (puts : List (Addr × Bytes))
    (hd : Spec.final ((a, v) :: puts) ≠ Spec.final [(a, v)])
    (he : Spec.rootHash H (Spec.final [(a, v)]) = Spec.rootHash H (Spec.final ((a, v) :: puts))) :
    CollisionIn H (Spec.rootStrings H (Spec.final [(a, v)])) (Spec.rootStrings H (Spec.final ((a, v) :: puts))) :=
  (root_binding he).resolve_left fun h => hd h.symm

/-- Two entries whose keys begin with the same digit. -/
example (a b : Addr) (hab : a ≠ b) (hh : (Spec.nibbles b).head? = (Spec.nibbles a).head?) :
    (∀ e ∈ [(b, [(1 : UInt8)])], e.2 ≠ [] ∧ (Spec.nibbles e.1).head? = (Spec.nibbles a).head?) ∧
      Spec.final [(a, [1]), (b, [1])] ≠ Spec.final [(a, [1])] := by
  refine ⟨by simpa using hh, fun h => ?_⟩
  have := congrFun h b
  simp [Spec.final, hab] at this

end Nimiq.Tree.Generic
