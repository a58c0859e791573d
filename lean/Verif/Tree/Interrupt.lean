import Verif.Tree.StoreCopy
import Verif.Tree.Frame
/-!
# C103: `PutEntry` interrupted at a store access; C104: `Flush` interrupted

The methods of `Store` return no error, so an implementation that fails can only panic.  `tracing` is a `MemStore` that writes
down the whole state before and after each of its calls: the states in which a call of `PutEntry` can be interrupted.
-/
namespace Nimiq.Tree.Generic

variable {H : Bytes → Hash32}

/-- A `MemStore`, and the states at its calls so far. -/
structure TState where
  nodes : GoMap Ptr
  log : List World

/-- The state of the tree. -/
def snap (g : GWorld TState) : World := ⟨g.heap, g.next, .mem g.st.nodes⟩

/-- store_mem.go:18-30, writing down the state before and after each call -/
def tracing : Impl TState where
  getNode k := fun g => some (mget g.st.nodes k, { g with st := ⟨g.st.nodes, g.st.log ++ [snap g]⟩ })
  putNode k p := fun g => some ((), { g with st := ⟨mput g.st.nodes k p,
    g.st.log ++ [snap g, ⟨g.heap, g.next, .mem (mput g.st.nodes k p)⟩]⟩ })
  delNode k := fun g => some ((), { g with st := ⟨mdel g.st.nodes k,
    g.st.log ++ [snap g, ⟨g.heap, g.next, .mem (mdel g.st.nodes k)⟩]⟩ })

theorem tracing_keeps : KeepsPointers tracing (fun s => mget s.nodes) where
  get _ _ := ⟨_, rfl, rfl⟩
  put _ _ _ := ⟨_, rfl, funext fun _ => mget_mput _ _ _ _⟩
  del _ _ := ⟨_, rfl, funext fun _ => mget_mdel _ _ _⟩

/-- The tree `w`, on a tracing store. -/
def traced (w : World) : GWorld TState :=
  ⟨w.heap, w.next, ⟨match w.store with | .mem m => m | .overlay _ _ => [], []⟩⟩

/-- The states in which `PutEntry` can be interrupted by its store. -/
def interruptions (H : Bytes → Hash32) (a : Addr) (v : Bytes) (w : World) : List World :=
  match putEntry tracing H a v (traced w) with
  | none => []
  | some (_, g) => g.st.log

/-! ## Inversion -/

theorem bind_inv {σ α β} {m : GM σ α} {f : α → GM σ β} {g g' : GWorld σ} {x : β} (h : (m >>= f) g = some (x, g')) :
    ∃ a g1, m g = some (a, g1) ∧ f a g1 = some (x, g') := by
  rw [GM.bind_eq] at h
  cases hm : m g with
  | none => rw [hm] at h; simp at h
  | some r => rw [hm] at h; exact ⟨r.1, r.2, rfl, h⟩

theorem asBranch_inv {σ} {p : Ptr} {g g' : GWorld σ} {r} (h : asBranch p g = some (r, g')) :
    g' = g ∧ g.heap p = .branch r.1 r.2 := by
  obtain ⟨o, g1, h1, h2⟩ := bind_inv h
  simp only [deref, Option.some.injEq, Prod.mk.injEq] at h1
  obtain ⟨rfl, rfl⟩ := h1
  cases ho : g.heap p with
  | leaf a b => simp [ho, GM.panic] at h2
  | branch a b =>
    simp only [ho, GM.pure_eq, Option.some.injEq, Prod.mk.injEq] at h2
    obtain ⟨rfl, rfl⟩ := h2
    exact ⟨rfl, rfl⟩

theorem withChild_inv {σ} {ch s hh} {g g' : GWorld σ} {r} (h : withChild ch s hh g = some (r, g')) :
    g' = g ∧ ∃ i t, s = i :: t ∧ r = setChild ch i ⟨i :: t, hh, true⟩ := by
  cases s with
  | nil => simp [withChild, GM.panic] at h
  | cons i t =>
    simp only [withChild, GM.pure_eq, Option.some.injEq, Prod.mk.injEq] at h
    exact ⟨h.2.symm, i, t, rfl, h.1.symm⟩

theorem sliceFrom_inv {σ} {l n} {g g' : GWorld σ} {r} (h : sliceFrom l n g = some (r, g')) : g' = g ∧ r = l.drop n := by
  unfold sliceFrom at h
  split at h
  · simp only [GM.pure_eq, Option.some.injEq, Prod.mk.injEq] at h; exact ⟨h.2.symm, h.1.symm⟩
  · simp [GM.panic] at h

theorem pure_inv {σ α} {a x : α} {g g' : GWorld σ} (h : (Pure.pure a : GM σ α) g = some (x, g')) : x = a ∧ g' = g := by
  simp only [GM.pure_eq, Option.some.injEq, Prod.mk.injEq] at h; exact ⟨h.1.symm, h.2.symm⟩

/-! ## Between the calls -/

/-- A state in the middle of putting `v` under `a` into a tree that holds `M`. -/
structure Mid (M : Spec.Mapping) (a : Addr) (v : Bytes) (w : World) : Prop where
  short : ∀ p pfx ch, w.heap p = .branch pfx ch → pfx.length < 40
  leaf : ∀ b p, w.store.get (keyNibs b) = some p →
    p < w.next ∧ ∃ x, w.heap p = .leaf (keyNibs b) x ∧ (x = M b ∨ b = a ∧ x = v)
  none : ∀ b, w.store.get (keyNibs b) = none → M b = [] ∨ b = a ∧ v = []

/-- What the store holds under the key `b`. -/
def reads (s : World) (b : Addr) : Bytes :=
  match s.store.get (keyNibs b) with
  | none => []
  | some p =>
    match s.heap p with
    | .leaf _ x => x
    | .branch _ _ => []

/-- `s'` is a later state than `s`: leaves are never changed, and once the new value of `a` is there it stays. -/
structure Later (a : Addr) (v : Bytes) (s s' : World) : Prop where
  next : s.next ≤ s'.next
  leaf : ∀ p l x, p < s.next → s.heap p = .leaf l x → s'.heap p = .leaf l x
  new : reads s a = v → reads s' a = v

theorem Later.refl {a : Addr} {v : Bytes} (s : World) : Later a v s s := ⟨Nat.le_refl _, fun _ _ _ _ h => h, fun h => h⟩
theorem Later.trans {a : Addr} {v : Bytes} {s t u : World} (h1 : Later a v s t) (h2 : Later a v t u) : Later a v s u :=
  ⟨Nat.le_trans h1.next h2.next, fun p l x h h' => h2.leaf p l x (Nat.lt_of_lt_of_le h h1.next) (h1.leaf p l x h h'),
    fun h => h2.new (h1.new h)⟩

/-- Now and in every state written down; the states are written down in their order. -/
structure Hold (M : Spec.Mapping) (a : Addr) (v : Bytes) (g : GWorld TState) : Prop where
  now : Mid M a v (snap g)
  past : ∀ s ∈ g.st.log, Mid M a v s
  order : g.st.log.Pairwise (Later a v)
  before : ∀ s ∈ g.st.log, Later a v s (snap g)

variable {M : Spec.Mapping} {a : Addr} {v : Bytes}

theorem short_ne {k : Nibbles} (h : k.length < 40) (b : Addr) : keyNibs b ≠ k := by
  rintro rfl; rw [keyNibs_length] at h; omega

theorem Hold.step {g g' : GWorld TState} (hH : Hold M a v g) (hM : Mid M a v (snap g')) (hL : Later a v (snap g) (snap g'))
    (hl : g'.st.log = g.st.log ∨ g'.st.log = g.st.log ++ [snap g] ∨ g'.st.log = g.st.log ++ [snap g, snap g']) :
    Hold M a v g' := by
  rcases hl with hl | hl | hl
  · exact ⟨hM, by rw [hl]; exact hH.past, by rw [hl]; exact hH.order, by rw [hl]; exact fun s hs => (hH.before s hs).trans hL⟩
  · refine ⟨hM, ?_, ?_, ?_⟩
    · rw [hl]; intro s hs
      rcases List.mem_append.mp hs with hs | hs
      · exact hH.past s hs
      · rw [List.mem_singleton] at hs; rw [hs]; exact hH.now
    · rw [hl, List.pairwise_append]
      refine ⟨hH.order, List.pairwise_singleton _ _, ?_⟩
      intro s hs t ht
      rw [List.mem_singleton] at ht; rw [ht]; exact hH.before s hs
    · rw [hl]; intro s hs
      rcases List.mem_append.mp hs with hs | hs
      · exact (hH.before s hs).trans hL
      · rw [List.mem_singleton] at hs; rw [hs]; exact hL
  · refine ⟨hM, ?_, ?_, ?_⟩
    · rw [hl]; intro s hs
      simp only [List.mem_append, List.mem_cons, List.not_mem_nil, or_false] at hs
      rcases hs with hs | rfl | rfl
      · exact hH.past s hs
      · exact hH.now
      · exact hM
    · rw [hl, List.pairwise_append]
      refine ⟨hH.order, ?_, ?_⟩
      · rw [List.pairwise_cons]
        refine ⟨?_, List.pairwise_singleton _ _⟩
        intro t ht
        rw [List.mem_singleton] at ht; rw [ht]; exact hL
      · intro s hs t ht
        simp only [List.mem_cons, List.not_mem_nil, or_false] at ht
        rcases ht with rfl | rfl
        · exact hH.before s hs
        · exact (hH.before s hs).trans hL
    · rw [hl]; intro s hs
      simp only [List.mem_append, List.mem_cons, List.not_mem_nil, or_false] at hs
      rcases hs with hs | rfl | rfl
      · exact (hH.before s hs).trans hL
      · exact hL
      · exact .refl _

theorem hold_get {g g' : GWorld TState} {k r} (hH : Hold M a v g) (h : tracing.getNode k g = some (r, g')) :
    Hold M a v g' ∧ snap g' = snap g ∧ r = (snap g).store.get k := by
  simp only [tracing, Option.some.injEq, Prod.mk.injEq] at h
  obtain ⟨rfl, rfl⟩ := h
  exact ⟨hH.step hH.now (.refl _) (.inr (.inl rfl)), rfl, rfl⟩

theorem mid_put {w : World} {m : GoMap Ptr} (hw : w.store = .mem m) (hM : Mid M a v w) {k : Nibbles} {p : Ptr}
    (hk : k.length < 40 ∨ k = keyNibs a ∧ p < w.next ∧ w.heap p = .leaf (keyNibs a) v) :
    Mid M a v ⟨w.heap, w.next, .mem (mput m k p)⟩ := by
  refine ⟨hM.short, ?_, ?_⟩
  · intro b q hq
    simp only [Store.get, mget_mput] at hq
    split at hq
    · rename_i e
      rcases hk with hk | ⟨rfl, h1, h2⟩
      · exact absurd e (short_ne hk b)
      · obtain rfl := Option.some.inj hq
        obtain rfl := keyNibs_inj e
        exact ⟨h1, v, h2, .inr ⟨rfl, rfl⟩⟩
    · exact hM.leaf b q (by rw [hw]; exact hq)
  · intro b hq
    simp only [Store.get, mget_mput] at hq
    split at hq
    · simp at hq
    · exact hM.none b (by rw [hw]; exact hq)

theorem mid_del {w : World} {m : GoMap Ptr} (hw : w.store = .mem m) (hM : Mid M a v w) {k : Nibbles}
    (hk : k.length < 40 ∨ k = keyNibs a ∧ v = []) : Mid M a v ⟨w.heap, w.next, .mem (mdel m k)⟩ := by
  refine ⟨hM.short, ?_, ?_⟩
  · intro b q hq
    simp only [Store.get, mget_mdel] at hq
    split at hq
    · simp at hq
    · exact hM.leaf b q (by rw [hw]; exact hq)
  · intro b hq
    simp only [Store.get, mget_mdel] at hq
    split at hq
    · rename_i e
      rcases hk with hk | ⟨rfl, h1⟩
      · exact absurd e (short_ne hk b)
      · obtain rfl := keyNibs_inj e
        exact .inr ⟨rfl, h1⟩
    · exact hM.none b (by rw [hw]; exact hq)

theorem hold_put {g g' : GWorld TState} {k p r} (hH : Hold M a v g)
    (hk : k.length < 40 ∨ k = keyNibs a ∧ p < g.next ∧ g.heap p = .leaf (keyNibs a) v)
    (h : tracing.putNode k p g = some (r, g')) : Hold M a v g' ∧ g'.heap = g.heap ∧ g'.next = g.next := by
  simp only [tracing, Option.some.injEq, Prod.mk.injEq] at h
  obtain ⟨-, rfl⟩ := h
  refine ⟨hH.step (mid_put (m := g.st.nodes) rfl hH.1 hk) ⟨Nat.le_refl _, fun _ _ _ _ h => h, ?_⟩ (.inr (.inr rfl)), rfl, rfl⟩
  intro h
  rcases hk with hk | ⟨rfl, -, hl⟩
  · simp only [reads, snap, Store.get, mget_mput, if_neg (short_ne hk a)] at h ⊢
    exact h
  · simp only [reads, snap, Store.get, mget_mput, if_true, hl]

theorem hold_del {g g' : GWorld TState} {k r} (hH : Hold M a v g) (hk : k.length < 40 ∨ k = keyNibs a ∧ v = [])
    (h : tracing.delNode k g = some (r, g')) : Hold M a v g' ∧ g'.heap = g.heap ∧ g'.next = g.next := by
  simp only [tracing, Option.some.injEq, Prod.mk.injEq] at h
  obtain ⟨-, rfl⟩ := h
  refine ⟨hH.step (mid_del (m := g.st.nodes) rfl hH.1 hk) ⟨Nat.le_refl _, fun _ _ _ _ h => h, ?_⟩ (.inr (.inr rfl)), rfl, rfl⟩
  intro h
  rcases hk with hk | ⟨rfl, hv⟩
  · simp only [reads, snap, Store.get, mget_mdel, if_neg (short_ne hk a)] at h ⊢
    exact h
  · simp only [reads, snap, Store.get, mget_mdel, if_true, hv]

theorem hold_alloc {g g' : GWorld TState} {o p} (hH : Hold M a v g)
    (ho : ∀ pfx ch, o = .branch pfx ch → pfx.length < 40) (h : alloc o g = some (p, g')) :
    Hold M a v g' ∧ p < g'.next ∧ g'.heap p = o ∧ ∀ q pfx ch, g.heap q = .branch pfx ch → q < g.next → g'.heap q = .branch pfx ch := by
  simp only [alloc, Option.some.injEq, Prod.mk.injEq] at h
  obtain ⟨rfl, rfl⟩ := h
  refine ⟨hH.step ⟨?_, ?_, ?_⟩ ⟨Nat.le_succ _, ?_, ?_⟩ (.inl rfl), Nat.lt_succ_self _, by simp, ?_⟩
  · intro p pfx ch hp
    simp only [snap] at hp
    split at hp
    · exact ho pfx ch hp
    · exact hH.1.short p pfx ch hp
  · intro b p hp
    obtain ⟨h1, x, h2, h3⟩ := hH.1.leaf b p hp
    refine ⟨Nat.lt_succ_of_lt h1, x, ?_, h3⟩
    simp only [snap] at h1 ⊢
    rw [if_neg (Nat.ne_of_lt h1)]; exact h2
  · exact hH.1.none
  · intro p l x hlt hp
    simp only [snap] at hlt hp ⊢
    rw [if_neg (Nat.ne_of_lt hlt)]; exact hp
  · intro h
    unfold reads at h ⊢
    have e : (snap ⟨fun p => if p = g.next then o else g.heap p, g.next + 1, g.st⟩).store = (snap g).store := rfl
    rw [e]
    cases hg : (snap g).store.get (keyNibs a) with
    | none => rw [hg] at h; exact h
    | some p =>
      obtain ⟨h1, -⟩ := hH.1.leaf a p hg
      rw [hg] at h
      simp only [snap] at h h1 ⊢
      rw [if_neg (Nat.ne_of_lt h1)]; exact h
  · intro q pfx ch hq hlt
    simp only
    rw [if_neg (Nat.ne_of_lt hlt)]; exact hq

theorem hold_write {g g' : GWorld TState} {p pfx ch ch' r} (hH : Hold M a v g) (hp : g.heap p = .branch pfx ch)
    (h : write p (.branch pfx ch') g = some (r, g')) : Hold M a v g' ∧ g'.heap p = .branch pfx ch' := by
  simp only [write, Option.some.injEq, Prod.mk.injEq] at h
  obtain ⟨-, rfl⟩ := h
  refine ⟨hH.step ⟨?_, ?_, hH.1.none⟩ ⟨Nat.le_refl _, ?_, ?_⟩ (.inl rfl), by simp⟩
  · intro q pfx' c hq
    simp only [snap] at hq
    split at hq
    · simp only [NodeObj.branch.injEq] at hq
      rw [← hq.1]; exact hH.1.short p pfx ch hp
    · exact hH.1.short q pfx' c hq
  · intro b q hq
    obtain ⟨h1, x, h2, h3⟩ := hH.1.leaf b q hq
    refine ⟨h1, x, ?_, h3⟩
    simp only [snap] at h2 ⊢
    rw [if_neg]
    · exact h2
    · rintro rfl; rw [hp] at h2; simp at h2
  · intro q l x _ hq
    simp only [snap] at hq ⊢
    rw [if_neg]
    · exact hq
    · rintro rfl; rw [hp] at hq; simp at hq
  · intro h
    unfold reads at h ⊢
    have e : (snap ⟨fun q => if q = p then .branch pfx ch' else g.heap q, g.next, g.st⟩).store = (snap g).store := rfl
    rw [e]
    cases hg : (snap g).store.get (keyNibs a) with
    | none => rw [hg] at h; exact h
    | some q =>
      obtain ⟨h1, x, h2, -⟩ := hH.1.leaf a q hg
      rw [hg] at h
      simp only [snap] at h h2 ⊢
      rw [if_neg]
      · exact h
      · rintro rfl; rw [hp] at h2; simp at h2

theorem hold_invalidate : ∀ (path : List Ptr) (cur : Nibbles) {g g' : GWorld TState} {r}, Hold M a v g →
    invalidatePath cur path g = some (r, g') → Hold M a v g'
  | [], _, g, g', r, hH, h => by obtain ⟨-, rfl⟩ := pure_inv h; exact hH
  | p :: path, cur, g, g', r, hH, h => by
    obtain ⟨⟨pfx, ch⟩, g1, h1, h2⟩ := bind_inv h
    obtain ⟨rfl, hb⟩ := asBranch_inv h1
    obtain ⟨s, g2, h3, h4⟩ := bind_inv h2
    obtain ⟨rfl, -⟩ := sliceFrom_inv h3
    obtain ⟨c, g3, h5, h6⟩ := bind_inv h4
    obtain ⟨rfl, -⟩ := withChild_inv h5
    obtain ⟨_, g4, h7, h8⟩ := bind_inv h6
    exact hold_invalidate path _ (hold_write hH hb h7).1 h8

theorem hold_prune : ∀ (path : List Ptr) (cur : Nibbles) {g g' : GWorld TState} {r}, Hold M a v g →
    prune tracing cur path g = some (r, g') → Hold M a v g'
  | [], _, g, g', r, hH, h => by obtain ⟨-, rfl⟩ := pure_inv h; exact hH
  | p :: path, cur, g, g', r, hH, h => by
    obtain ⟨⟨pfx, ch⟩, g1, h1, h2⟩ := bind_inv h
    obtain ⟨rfl, hb⟩ := asBranch_inv h1
    have hs : pfx.length < 40 := hH.1.short p pfx ch hb
    cases hd : cur.drop pfx.length with
    | nil => simp [hd, GM.panic] at h2
    | cons i t =>
      simp only [hd] at h2
      obtain ⟨_, g2, h3, h4⟩ := bind_inv h2
      have hH2 := (hold_write hH hb h3).1
      have put : ∀ {c : Nibbles}, (tracing.putNode pfx p >>= fun _ => invalidatePath c path) g2 = some (r, g') → Hold M a v g' := by
        intro c h
        obtain ⟨_, g3, h5, h6⟩ := bind_inv h
        exact hold_invalidate path _ (hold_put hH2 (.inl hs) h5).1 h6
      revert h4
      generalize existing (setChild ch i { ch i with exist := false }) = ex
      intro h4
      rcases ex with _ | ⟨c, _ | ⟨c', cs⟩⟩
      · simp only at h4
        split at h4
        · exact put h4
        · exact hold_prune path _ hH2 h4
      · simp only at h4
        split at h4
        · obtain ⟨_, g3, h5, h6⟩ := bind_inv h4
          exact hold_invalidate path _ (hold_del hH2 (.inl hs) h5).1 h6
        · exact put h4
      · exact put h4

theorem hold_update : ∀ (fuel : Nat) (np : Nibbles) (path : List Ptr) {g g' : GWorld TState} {r}, Hold M a v g →
    update tracing fuel np (keyNibs a) v path g = some (r, g') → Hold M a v g'
  | 0, _, _, g, g', r, _, h => by simp [update, GM.panic] at h
  | fuel + 1, np, path, g, g', r, hH, h => by
    rw [update] at h
    split at h
    · obtain ⟨p, g1, h1, h2⟩ := bind_inv h
      obtain ⟨hH1, hp, hl, -⟩ := hold_alloc hH (by simp) h1
      obtain ⟨_, g2, h3, h4⟩ := bind_inv h2
      obtain ⟨hH2, -⟩ := hold_put hH1 (.inr ⟨rfl, hp, hl⟩) h3
      obtain ⟨s1, g3, h5, h6⟩ := bind_inv h4
      obtain ⟨rfl, -⟩ := sliceFrom_inv h5
      obtain ⟨c1, g4, h7, h8⟩ := bind_inv h6
      obtain ⟨rfl, -⟩ := withChild_inv h7
      obtain ⟨s2, g5, h9, h10⟩ := bind_inv h8
      obtain ⟨rfl, e⟩ := sliceFrom_inv h9
      obtain ⟨c2, g6, h11, h12⟩ := bind_inv h10
      obtain ⟨rfl, i, t, e', -⟩ := withChild_inv h11
      have hs : (commonPrefix np (keyNibs a)).length < 40 := by
        have := congrArg List.length (e.symm.trans e')
        rw [List.length_drop, List.length_cons, keyNibs_length] at this
        omega
      obtain ⟨q, g7, h13, h14⟩ := bind_inv h12
      obtain ⟨hH3, -⟩ := hold_alloc hH2 (by intro pfx ch h; simp only [NodeObj.branch.injEq] at h; rw [← h.1]; exact hs) h13
      obtain ⟨_, g8, h15, h16⟩ := bind_inv h14
      exact hold_invalidate path _ (hold_put hH3 (.inl hs) h15).1 h16
    · split at h
      · rename_i hnp
        subst hnp
        split at h
        · rename_i hv
          obtain ⟨_, g1, h1, h2⟩ := bind_inv h
          exact hold_prune path _ (hold_del hH (.inr ⟨rfl, List.eq_nil_of_length_eq_zero hv⟩) h1).1 h2
        · obtain ⟨p, g1, h1, h2⟩ := bind_inv h
          obtain ⟨hH1, hp, hl, -⟩ := hold_alloc hH (by simp) h1
          obtain ⟨_, g2, h3, h4⟩ := bind_inv h2
          exact hold_invalidate path _ (hold_put hH1 (.inr ⟨rfl, hp, hl⟩) h3).1 h4
      · obtain ⟨n, g1, h1, h2⟩ := bind_inv h
        obtain ⟨hH1, -⟩ := hold_get hH h1
        split at h2
        · simp [GM.panic] at h2
        · rename_i node
          obtain ⟨⟨npfx, ch⟩, g2, h3, h4⟩ := bind_inv h2
          obtain ⟨rfl, hb⟩ := asBranch_inv h3
          cases hd : (keyNibs a).drop npfx.length with
          | nil => simp [hd, GM.panic] at h4
          | cons i t =>
            simp only [hd] at h4
            split at h4
            · exact hold_update fuel _ _ hH1 h4
            · obtain ⟨p, g3, h5, h6⟩ := bind_inv h4
              obtain ⟨hH2, hp, hl, -⟩ := hold_alloc hH1 (by simp) h5
              obtain ⟨_, g4, h7, h8⟩ := bind_inv h6
              obtain ⟨hH3, -⟩ := hold_put hH2 (.inr ⟨rfl, hp, hl⟩) h7
              obtain ⟨⟨np2, ch2⟩, g5, h9, h10⟩ := bind_inv h8
              obtain ⟨rfl, hb2⟩ := asBranch_inv h9
              obtain ⟨s, g6, h11, h12⟩ := bind_inv h10
              obtain ⟨rfl, -⟩ := sliceFrom_inv h11
              obtain ⟨c, g7, h13, h14⟩ := bind_inv h12
              obtain ⟨rfl, -⟩ := withChild_inv h13
              obtain ⟨_, g8, h15, h16⟩ := bind_inv h14
              obtain ⟨hH4, hb3⟩ := hold_write hH3 hb2 h15
              obtain ⟨_, g9, h17, h18⟩ := bind_inv h16
              exact hold_invalidate path _ (hold_put hH4 (.inl (hH4.1.short _ _ _ hb3)) h17).1 h18

theorem hold_hashLoop {rec : Nibbles → GM TState Hash32}
    (hrec : ∀ k {g g' : GWorld TState} {r}, Hold M a v g → rec k g = some (r, g') → Hold M a v g') (k : Nibbles) (p : Ptr) :
    ∀ (is : List Nib) {g g' : GWorld TState} {r}, Hold M a v g → hashLoop rec k p is g = some (r, g') → Hold M a v g'
  | [], g, g', r, hH, h => by obtain ⟨-, rfl⟩ := pure_inv h; exact hH
  | i :: is, g, g', r, hH, h => by
    obtain ⟨⟨pfx, ch⟩, g1, h1, h2⟩ := bind_inv h
    obtain ⟨rfl, hb⟩ := asBranch_inv h1
    simp only at h2
    split at h2
    · obtain ⟨hh, g2, h3, h4⟩ := bind_inv h2
      have hH2 := hrec _ hH h3
      obtain ⟨⟨pfx2, ch2⟩, g3, h5, h6⟩ := bind_inv h4
      obtain ⟨rfl, hb2⟩ := asBranch_inv h5
      obtain ⟨_, g4, h7, h8⟩ := bind_inv h6
      exact hold_hashLoop hrec k p is (hold_write hH2 hb2 h7).1 h8
    · exact hold_hashLoop hrec k p is hH h2

theorem hold_hashes : ∀ (fuel : Nat) (k : Nibbles) {g g' : GWorld TState} {r}, Hold M a v g →
    updateHashes tracing H fuel k g = some (r, g') → Hold M a v g'
  | 0, _, g, g', r, _, h => by simp [updateHashes, GM.panic] at h
  | fuel + 1, k, g, g', r, hH, h => by
    rw [updateHashes] at h
    obtain ⟨n, g1, h1, h2⟩ := bind_inv h
    obtain ⟨hH1, -⟩ := hold_get hH h1
    split at h2
    · simp [GM.panic] at h2
    · obtain ⟨o, g2, h3, h4⟩ := bind_inv h2
      simp only [deref, Option.some.injEq, Prod.mk.injEq] at h3
      obtain ⟨rfl, rfl⟩ := h3
      rename_i p
      cases ho : g1.heap p with
      | leaf lp lv => simp only [ho] at h4; obtain ⟨-, rfl⟩ := pure_inv h4; exact hH1
      | branch bp bch =>
        simp only [ho] at h4
        obtain ⟨_, g3, h5, h6⟩ := bind_inv h4
        have hH2 := hold_hashLoop (hold_hashes fuel) k _ _ hH1 h5
        obtain ⟨⟨np, ch⟩, g4, h7, h8⟩ := bind_inv h6
        obtain ⟨rfl, hb⟩ := asBranch_inv h7
        obtain ⟨_, g5, h9, h10⟩ := bind_inv h8
        obtain ⟨-, rfl⟩ := pure_inv h10
        exact (hold_put hH2 (.inl (hH2.1.short _ _ _ hb)) h9).1

theorem hold_updateEntry {g g' : GWorld TState} {r} (hH : Hold M a v g) (h : updateEntry tracing a v g = some (r, g')) :
    Hold M a v g' := by
  unfold updateEntry at h
  obtain ⟨n, g1, h1, h2⟩ := bind_inv h
  obtain ⟨hH1, -⟩ := hold_get hH h1
  have upd : ∀ {x : Bool}, (update tracing maxDepth [] (keyNibs a) v [] >>= fun _ => (Pure.pure x : GM TState Bool)) g1 = some (r, g') → Hold M a v g' := by
    intro x h
    obtain ⟨_, g2, h3, h4⟩ := bind_inv h
    obtain ⟨-, rfl⟩ := pure_inv h4
    exact hold_update _ _ _ hH1 h3
  split at h2
  · split at h2
    · obtain ⟨-, rfl⟩ := pure_inv h2; exact hH1
    · exact upd h2
  · obtain ⟨o, g2, h3, h4⟩ := bind_inv h2
    simp only [deref, Option.some.injEq, Prod.mk.injEq] at h3
    obtain ⟨rfl, rfl⟩ := h3
    rename_i p
    cases ho : g1.heap p with
    | leaf lp lv =>
      simp only [ho] at h4
      split at h4
      · obtain ⟨-, rfl⟩ := pure_inv h4; exact hH1
      · exact upd h4
    | branch bp bch => simp only [ho] at h4; exact upd h4

theorem hold_putEntry {g g' : GWorld TState} {r} (hH : Hold M a v g) (h : putEntry tracing H a v g = some (r, g')) :
    Hold M a v g' := by
  obtain ⟨c, g1, h1, h2⟩ := bind_inv h
  obtain ⟨_, g2, h3, h4⟩ := bind_inv h2
  obtain ⟨-, rfl⟩ := pure_inv h4
  exact hold_hashes _ _ (hold_updateEntry hH h1) h3

/-! ## What is written down stays written down -/

/-- `m` only adds to the log. -/
def Adds {α} (m : GM TState α) : Prop := ∀ g x g', m g = some (x, g') → g.st.log <+: g'.st.log

namespace Adds

theorem pure {α} (a : α) : Adds (Pure.pure a : GM TState α) := by
  intro g x g' h; obtain ⟨-, rfl⟩ := pure_inv h; exact List.prefix_refl _
theorem panic {α} : Adds (GM.panic : GM TState α) := by intro g x g' h; simp [GM.panic] at h
theorem bind {α β} {m : GM TState α} {f : α → GM TState β} (hm : Adds m) (hf : ∀ a, Adds (f a)) : Adds (m >>= f) := by
  intro g x g' h
  obtain ⟨a, g1, h1, h2⟩ := bind_inv h
  exact (hm _ _ _ h1).trans (hf a _ _ _ h2)
theorem get (k) : Adds (tracing.getNode k) := by
  intro g x g' h
  simp only [tracing, Option.some.injEq, Prod.mk.injEq] at h
  rw [← h.2]; exact List.prefix_append _ _
theorem put (k p) : Adds (tracing.putNode k p) := by
  intro g x g' h
  simp only [tracing, Option.some.injEq, Prod.mk.injEq] at h
  rw [← h.2]; exact List.prefix_append _ _
theorem del (k) : Adds (tracing.delNode k) := by
  intro g x g' h
  simp only [tracing, Option.some.injEq, Prod.mk.injEq] at h
  rw [← h.2]; exact List.prefix_append _ _
theorem alloc (o) : Adds (Generic.alloc o) := by
  intro g x g' h
  simp only [Generic.alloc, Option.some.injEq, Prod.mk.injEq] at h
  rw [← h.2]; exact List.prefix_refl _
theorem write (p o) : Adds (Generic.write p o) := by
  intro g x g' h
  simp only [Generic.write, Option.some.injEq, Prod.mk.injEq] at h
  rw [← h.2]; exact List.prefix_refl _
theorem deref (p) : Adds (Generic.deref p) := by
  intro g x g' h
  simp only [Generic.deref, Option.some.injEq, Prod.mk.injEq] at h
  rw [← h.2]; exact List.prefix_refl _
theorem asBranch (p) : Adds (Generic.asBranch p) := by
  intro g x g' h; obtain ⟨rfl, -⟩ := asBranch_inv h; exact List.prefix_refl _
theorem withChild (ch t h) : Adds (Generic.withChild ch t h) := by
  intro g x g' h; obtain ⟨rfl, -⟩ := withChild_inv h; exact List.prefix_refl _
theorem sliceFrom (l n) : Adds (Generic.sliceFrom l n) := by
  intro g x g' h; obtain ⟨rfl, -⟩ := sliceFrom_inv h; exact List.prefix_refl _

theorem inv : ∀ (path : List Ptr) (cur : Nibbles), Adds (invalidatePath cur path)
  | [], _ => pure _
  | p :: path, cur => by
    unfold invalidatePath
    exact .bind (asBranch p) fun r => .bind (sliceFrom _ _) fun _ => .bind (withChild _ _ _) fun _ =>
      .bind (write _ _) fun _ => inv path _

theorem prune : ∀ (path : List Ptr) (cur : Nibbles), Adds (Generic.prune tracing cur path)
  | [], _ => pure _
  | p :: path, cur => by
    unfold Generic.prune
    refine .bind (asBranch p) fun r => ?_
    obtain ⟨pfx, ch⟩ := r
    simp only
    split
    · exact .panic
    · refine .bind (write _ _) fun _ => ?_
      split
      · split
        · exact .bind (del _) fun _ => inv _ _
        · exact .bind (put _ _) fun _ => inv _ _
      · split
        · exact .bind (put _ _) fun _ => inv _ _
        · exact prune path _
      · exact .bind (put _ _) fun _ => inv _ _

theorem hashLoop {rec : Nibbles → GM TState Hash32} (hr : ∀ k, Adds (rec k)) (k p) :
    ∀ is, Adds (Generic.hashLoop rec k p is)
  | [] => pure _
  | i :: is => by
    unfold Generic.hashLoop
    refine .bind (asBranch _) fun r => ?_
    obtain ⟨npfx, ch⟩ := r
    simp only
    split
    · exact .bind (hr _) fun _ => .bind (asBranch _) fun _ => .bind (write _ _) fun _ => hashLoop hr k p is
    · exact hashLoop hr k p is

theorem hashes : ∀ (fuel k), Adds (updateHashes tracing H fuel k)
  | 0, _ => .panic
  | fuel + 1, k => by
    unfold updateHashes
    refine .bind (get _) fun r => ?_
    cases r with
    | none => exact .panic
    | some p =>
      refine .bind (deref _) fun o => ?_
      cases o with
      | leaf lp v => exact .pure _
      | branch pfx ch =>
        exact .bind (hashLoop (hashes fuel) _ _ _) fun _ => .bind (asBranch _) fun _ => .bind (put _ _) fun _ => .pure _

end Adds

/-! ## The state after the first write -/

/-- `s` is `w` with the entry of the key written, and nothing else done. -/
structure Begun (a : Addr) (v : Bytes) (w s : World) : Prop where
  mem : ∃ m, s.store = .mem m
  heap : ∀ p, p < w.next → s.heap p = w.heap p
  get : ∀ k, k ≠ keyNibs a → s.store.get k = w.store.get k
  key : (∃ p, s.store.get (keyNibs a) = some p ∧ s.heap p = .leaf (keyNibs a) v) ∨ v = [] ∧ s.store.get (keyNibs a) = none

theorem begun_leaf {g g1 g2 : GWorld TState} {p r} (h1 : alloc (.leaf (keyNibs a) v) g = some (p, g1))
    (h2 : tracing.putNode (keyNibs a) p g1 = some (r, g2)) : ∃ s ∈ g2.st.log, Begun a v (snap g) s := by
  simp only [alloc, Option.some.injEq, Prod.mk.injEq] at h1
  obtain ⟨rfl, rfl⟩ := h1
  simp only [tracing, Option.some.injEq, Prod.mk.injEq] at h2
  obtain ⟨-, rfl⟩ := h2
  refine ⟨_, List.mem_append_right _ (List.mem_cons_of_mem _ (List.mem_cons_self ..)), ⟨_, rfl⟩, ?_, ?_, .inl ⟨g.next, ?_, ?_⟩⟩
  · intro q hq
    have : q < g.next := hq
    simp only [snap]
    rw [if_neg (Nat.ne_of_lt this)]
  · intro k hk
    simp only [Store.get, mget_mput, snap, if_neg hk]
  · simp only [Store.get, mget_mput, if_true]
  · simp

theorem begun_update : ∀ (fuel : Nat) (np : Nibbles) (path : List Ptr) {g g' : GWorld TState} {r},
    update tracing fuel np (keyNibs a) v path g = some (r, g') → ∃ s ∈ g'.st.log, Begun a v (snap g) s
  | 0, _, _, g, g', r, h => by simp [update, GM.panic] at h
  | fuel + 1, np, path, g, g', r, h => by
    rw [update] at h
    split at h
    · obtain ⟨p, g1, h1, h2⟩ := bind_inv h
      obtain ⟨_, g2, h3, h4⟩ := bind_inv h2
      obtain ⟨s, hs, hb⟩ := begun_leaf h1 h3
      refine ⟨s, ?_, hb⟩
      exact (Adds.bind (.sliceFrom _ _) fun _ => .bind (.withChild _ _ _) fun _ => .bind (.sliceFrom _ _) fun _ =>
        .bind (.withChild _ _ _) fun _ => .bind (.alloc _) fun _ => .bind (.put _ _) fun _ => .inv _ _) _ _ _ h4 |>.subset hs
    · split at h
      · rename_i hnp
        subst hnp
        split at h
        · rename_i hv
          obtain ⟨_, g1, h1, h2⟩ := bind_inv h
          simp only [tracing, Option.some.injEq, Prod.mk.injEq] at h1
          obtain ⟨-, rfl⟩ := h1
          refine ⟨⟨g.heap, g.next, .mem (mdel g.st.nodes (keyNibs a))⟩, (Adds.prune _ _ _ _ _ h2).subset (by simp), ⟨_, rfl⟩,
            fun _ _ => rfl, ?_, .inr ⟨List.eq_nil_of_length_eq_zero hv, ?_⟩⟩
          · intro k hk; simp only [Store.get, mget_mdel, snap, if_neg hk]
          · simp only [Store.get, mget_mdel, if_true]
        · obtain ⟨p, g1, h1, h2⟩ := bind_inv h
          obtain ⟨_, g2, h3, h4⟩ := bind_inv h2
          obtain ⟨s, hs, hb⟩ := begun_leaf h1 h3
          exact ⟨s, (Adds.inv _ _ _ _ _ h4).subset hs, hb⟩
      · obtain ⟨n, g1, h1, h2⟩ := bind_inv h
        have hsn : snap g1 = snap g := by
          simp only [tracing, Option.some.injEq, Prod.mk.injEq] at h1
          rw [← h1.2]; rfl
        split at h2
        · simp [GM.panic] at h2
        · rename_i node
          obtain ⟨⟨npfx, ch⟩, g2, h3, h4⟩ := bind_inv h2
          obtain ⟨rfl, hb⟩ := asBranch_inv h3
          cases hd : (keyNibs a).drop npfx.length with
          | nil => simp [hd, GM.panic] at h4
          | cons i t =>
            simp only [hd] at h4
            split at h4
            · obtain ⟨s, hs, hb⟩ := begun_update fuel _ _ h4
              exact ⟨s, hs, by rw [← hsn]; exact hb⟩
            · obtain ⟨p, g3, h5, h6⟩ := bind_inv h4
              obtain ⟨_, g4, h7, h8⟩ := bind_inv h6
              obtain ⟨s, hs, hb⟩ := begun_leaf h5 h7
              refine ⟨s, ?_, by rw [← hsn]; exact hb⟩
              exact (Adds.bind (.asBranch _) fun _ => .bind (.sliceFrom _ _) fun _ => .bind (.withChild _ _ _) fun _ =>
                .bind (.write _ _) fun _ => .bind (.put _ _) fun _ => .inv _ _) _ _ _ h8 |>.subset hs

/-! ## Trees in reach -/

/-- A tree in reach on a `MemStore`. -/
structure Good (H : Bytes → Hash32) (M : Spec.Mapping) (w : World) : Prop where
  inv : TreeInv H w M
  mem : ∃ m, w.store = .mem m
  short : ∀ p pfx ch, w.heap p = .branch pfx ch → pfx.length < 40

theorem Good.new : Good H (fun _ => []) newWorld :=
  ⟨newWorld_inv, ⟨_, rfl⟩, by intro p pfx ch h; simp only [newWorld, NodeObj.branch.injEq] at h; rw [← h.1]; simp⟩

theorem snap_traced {w : World} {m} (h : w.store = .mem m) : snap (traced w) = w := by
  obtain ⟨hp, n, s⟩ := w; simp only at h; subst h; rfl

theorem traced_sim {w : World} {m} (h : w.store = .mem m) : Sim (fun s : TState => mget s.nodes) (traced w) w := by
  refine ⟨rfl, rfl, m, h, ?_⟩
  intro k; simp only [traced, h]

theorem Good.hold {w : World} (G : Good H M w) : Hold M a v (traced w) := by
  obtain ⟨m, hm⟩ := G.mem
  refine ⟨?_, by simp [traced], by simp [traced], by simp [traced]⟩
  rw [snap_traced hm]
  refine ⟨G.short, ?_, ?_⟩
  · intro b p hp
    refine ⟨G.inv.wf.alloc hp, M b, ?_, .inl rfl⟩
    have h1 := G.inv.map b
    have h2 := G.inv.wf.r.heap hp
    rw [h1] at h2
    split at h2
    · simp at h2
    · exact (Option.some.inj h2).symm
  · intro b hb
    left
    have h1 := G.inv.map b
    have h2 : w.view (keyNibs b) = none := by simp only [World.view, hb]; rfl
    rw [h2] at h1
    by_cases h : M b = []
    · exact h
    · rw [if_neg h] at h1; simp at h1

/-- A put on the tree and on its traced copy. -/
theorem Good.put {w : World} (G : Good H M w) (a : Addr) (v : Bytes) : ∃ r w' g', putEntry tracing H a v (traced w) = some (r, g') ∧
    Tree.putEntry H a v w = some (r, w') ∧ Sim (fun s : TState => mget s.nodes) g' w' ∧ Good H (Spec.set M a v) w' := by
  obtain ⟨m, hm⟩ := G.mem
  obtain ⟨b, w1, f1, f2, f3⟩ := putEntry_spec G.inv a v
  rcases sim_putEntry (H := H) tracing_keeps.ops a v (traced w) w (traced_sim hm) with ⟨_, h⟩ | ⟨r, g', w', h3, h4, h5⟩
  · rw [f1] at h; simp at h
  · have e := h4
    rw [f1] at e
    simp only [Option.some.injEq, Prod.mk.injEq] at e
    obtain ⟨rfl, rfl⟩ := e
    refine ⟨b, w1, g', h3, h4, h5, f2, ?_, ?_⟩
    · exact memProp.kputEntry a v _ _ _ h4 ⟨m, hm⟩
    · have := (hold_putEntry (G.hold (a := a) (v := v)) h3).1.short
      simp only [snap, h5.1] at this
      exact this

theorem Good.run : ∀ (puts : List (Addr × Bytes)) {M : Spec.Mapping} {w : World}, Good H M w →
    ∃ w', Tree.runPuts H puts w = some w' ∧ Good H (puts.foldl (fun M e => Spec.set M e.1 e.2) M) w'
  | [], _, w, G => ⟨w, rfl, G⟩
  | (a, v) :: puts, M, w, G => by
    obtain ⟨r, w1, g', -, h2, -, G1⟩ := G.put a v
    obtain ⟨w', h3, G2⟩ := Good.run puts G1
    exact ⟨w', by simp only [Tree.runPuts, h2, h3], G2⟩

theorem reach (puts : List (Addr × Bytes)) : ∃ w, Tree.runPuts H puts newWorld = some w ∧ Good H (Spec.final puts) w := by
  obtain ⟨w, h1, G⟩ := Good.run (H := H) puts Good.new
  rw [← final_foldl] at G
  exact ⟨w, h1, G⟩

/-- When the entry changes there is a state with the new entry and nothing else done. -/
theorem Good.begun {w : World} (G : Good H M w) {r g'} (h2 : putEntry tracing H a v (traced w) = some (r, g')) (hv : M a ≠ v) :
    ∃ s ∈ g'.st.log, Begun a v w s := by
  obtain ⟨m, hm⟩ := G.mem
  obtain ⟨c, g1, e1, e2⟩ := bind_inv h2
  have fin : ∀ s ∈ g1.st.log, s ∈ g'.st.log := by
    intro s hs
    exact (Adds.bind (Adds.hashes _ _) fun _ => .pure _) _ _ _ e2 |>.subset hs
  obtain ⟨n, g2, e3, e4⟩ := bind_inv e1
  have hg2 : snap g2 = w ∧ n = w.store.get (keyNibs a) := by
    have := (hold_get (G.hold (a := a) (v := v)) e3).2
    rw [snap_traced hm] at this; exact this
  have upd : ∀ {x : Bool}, (update tracing maxDepth [] (keyNibs a) v [] >>= fun _ => (Pure.pure x : GM TState Bool)) g2 = some (c, g1) →
      ∃ s ∈ g'.st.log, Begun a v w s := by
    intro x h
    obtain ⟨_, g3, f1, f2⟩ := bind_inv h
    obtain ⟨-, rfl⟩ := pure_inv f2
    obtain ⟨s, hs, B⟩ := begun_update _ _ _ f1
    rw [hg2.1] at B
    exact ⟨s, fin s hs, B⟩
  have hmap := G.inv.map a
  by_cases hMa : M a = []
  · rw [if_pos hMa] at hmap
    have hn := hg2.2.trans (G.inv.wf.r.get_none hmap)
    subst hn
    have hvl : ¬ v.length = 0 := by
      intro h; exact hv (hMa.trans (List.eq_nil_of_length_eq_zero h).symm)
    simp only [if_neg hvl] at e4
    exact upd e4
  · rw [if_neg hMa] at hmap
    obtain ⟨p, hp, hh⟩ := G.inv.wf.r.get hmap
    have hn := hg2.2.trans hp
    subst hn
    have hheap : g2.heap p = .leaf (keyNibs a) (M a) := by
      rw [← hh, ← hg2.1]; rfl
    obtain ⟨o, g3, e5, e6⟩ := bind_inv e4
    simp only [deref, Option.some.injEq, Prod.mk.injEq] at e5
    obtain ⟨rfl, rfl⟩ := e5
    simp only [hheap, if_neg hv] at e6
    exact upd e6

/-! ## The theorems -/

/-- The traced call does what `PutEntry` does: same result, same nodes, same content of the store. -/
theorem C103_trace_faithful (puts : List (Addr × Bytes)) (a : Addr) (v : Bytes) :
    ∃ w r w' g', Tree.runPuts H puts newWorld = some w ∧ putEntry tracing H a v (traced w) = some (r, g') ∧
      Tree.putEntry H a v w = some (r, w') ∧ g'.heap = w'.heap ∧ ∀ k, mget g'.st.nodes k = w'.store.get k := by
  obtain ⟨w, h1, G⟩ := reach (H := H) puts
  obtain ⟨r, w', g', h2, h3, h4, -⟩ := G.put a v
  obtain ⟨e1, e2, m, e3, e4⟩ := h4
  exact ⟨w, r, w', g', h1, h2, h3, e1, fun k => by rw [e3]; exact e4 k⟩

/-- **C103**, the entries: wherever the store interrupts `PutEntry`, every other entry reads as before, and the entry itself has
its old or its new value. -/
theorem C103_interrupted_partial (puts : List (Addr × Bytes)) (a : Addr) (v : Bytes) :
    ∃ w, Tree.runPuts H puts newWorld = some w ∧ ∀ s ∈ interruptions H a v w, ∀ b, ∃ r, Tree.getEntry b s = some (r, s) ∧
      (r.getD [] = Spec.final puts b ∨ b = a ∧ r.getD [] = v) := by
  obtain ⟨w, h1, G⟩ := reach (H := H) puts
  obtain ⟨r, w', g', h2, -⟩ := G.put a v
  refine ⟨w, h1, ?_⟩
  intro s hs b
  rw [interruptions, h2] at hs
  have hM := (hold_putEntry (G.hold (a := a) (v := v)) h2).2 s hs
  cases hg : s.store.get (keyNibs b) with
  | none =>
    refine ⟨none, by simp only [Tree.getEntry, TM.bind_eq, Tree.getNode, hg]; rfl, ?_⟩
    rcases hM.none b hg with h | ⟨h, h'⟩
    · exact .inl h.symm
    · exact .inr ⟨h, h'.symm⟩
  | some p =>
    obtain ⟨-, x, hx, hx'⟩ := hM.leaf b p hg
    exact ⟨some x, by simp only [Tree.getEntry, TM.bind_eq, Tree.getNode, hg, Tree.deref, hx]; rfl, hx'⟩

/-- A state in which nothing but a wrong root is wrong, as far as `PutEntry` can see. -/
structure Settled (a : Addr) (v : Bytes) (ch : Nib → Child) (s : World) : Prop where
  mem : ∃ m, s.store = .mem m
  root : ∃ p, s.store.get [] = some p ∧ s.heap p = .branch [] ch
  key : (∃ p, s.store.get (keyNibs a) = some p ∧ s.heap p = .leaf (keyNibs a) v) ∨ v = [] ∧ s.store.get (keyNibs a) = none

theorem hashLoop_still {rec : Nibbles → TM Hash32} {k : Nibbles} {p : Ptr} {w : World} {pfx : Nibbles}
    {ch : Nib → Child} (hp : w.heap p = .branch pfx ch) (hc : ∀ i, ¬ ((ch i).exist = true ∧ (ch i).hash = zeroHash)) :
    ∀ is : List Nib, Tree.hashLoop rec k p is w = some ((), w)
  | [] => rfl
  | i :: is => by
    have : Tree.asBranch p w = some ((pfx, ch), w) := by
      simp only [Tree.asBranch, TM.bind_eq, Tree.deref, hp]; rfl
    simp only [Tree.hashLoop, TM.bind_eq, this]
    rw [if_neg (hc i)]
    exact hashLoop_still hp hc is

/-- Putting the same entry again changes nothing. -/
theorem Settled.again {ch : Nib → Child} (hc : ∀ i, ¬ ((ch i).exist = true ∧ (ch i).hash = zeroHash)) {s : World}
    (S : Settled a v ch s) : ∃ s', Tree.putEntry H a v s = some (false, s') ∧ Settled a v ch s' := by
  obtain ⟨m, hm⟩ := S.mem
  obtain ⟨p, hp, hb⟩ := S.root
  have hu : Tree.updateEntry a v s = some (false, s) := by
    rcases S.key with ⟨q, h1, h2⟩ | ⟨h1, h2⟩
    · simp only [Tree.updateEntry, TM.bind_eq, Tree.getNode, h1, Tree.deref, h2, if_true]; rfl
    · subst h1
      simp only [Tree.updateEntry, TM.bind_eq, Tree.getNode, h2, List.length_nil, if_true]; rfl
  have ha : Tree.asBranch p s = some (([], ch), s) := by
    simp only [Tree.asBranch, TM.bind_eq, Tree.deref, hb]; rfl
  have hh : Tree.updateHashes H maxDepth [] s = some (objHash H (.branch [] ch), { s with store := .mem (mput m [] p) }) := by
    unfold maxDepth Tree.updateHashes
    simp only [TM.bind_eq, Tree.getNode, hp, Tree.deref, hb, hashLoop_still hb hc, ha, Tree.putNode]
    rw [hm]
    rfl
  have hget : ∀ k, mget (mput m [] p) k = s.store.get k := by
    intro k
    rw [mget_mput, hm]
    split
    · rename_i e; rw [e, ← hp, hm]
    · rfl
  refine ⟨{ s with store := .mem (mput m [] p) }, ?_, ⟨_, rfl⟩, ⟨p, ?_, hb⟩, ?_⟩
  · simp only [Tree.putEntry, TM.bind_eq, hu, hh]; rfl
  · simp only [Store.get, hget]; exact hp
  · simp only [Store.get, hget]; exact S.key

theorem Settled.run {ch : Nib → Child} (hc : ∀ i, ¬ ((ch i).exist = true ∧ (ch i).hash = zeroHash)) :
    ∀ (n : Nat) {s : World}, Settled a v ch s → ∃ s', Tree.runPuts H (List.replicate n (a, v)) s = some s' ∧ Settled a v ch s'
  | 0, s, S => ⟨s, rfl, S⟩
  | n + 1, s, S => by
    obtain ⟨s1, h1, S1⟩ := S.again (H := H) hc
    obtain ⟨s', h2, S2⟩ := Settled.run hc n S1
    exact ⟨s', by simp only [List.replicate_succ, Tree.runPuts, h1, h2], S2⟩

/-- **C103 is violated**: the hash does not recover.  Whatever the tree holds and whatever entry is changed or removed, there is a
store call such that, if `PutEntry` is interrupted right after it, putting the entry again — any number of times — reports no
change, and the tree gives back the new entry with the hash of the old mapping. -/
theorem C103_retry_violated (hH : ∀ x, H x ≠ zeroHash) (puts : List (Addr × Bytes)) (a : Addr) (v : Bytes)
    (hv : Spec.final puts a ≠ v) :
    ∃ w, Tree.runPuts H puts newWorld = some w ∧ ∃ s ∈ interruptions H a v w, ∀ n, ∃ s',
      Tree.runPuts H (List.replicate n (a, v)) s = some s' ∧
      (∃ s'', Tree.putEntry H a v s' = some (false, s'')) ∧
      (∃ r, Tree.getEntry a s' = some (r, s') ∧ r.getD [] = v) ∧
      Tree.hash H s' = some (Spec.rootHash H (Spec.final puts), s') := by
  obtain ⟨w, h1, G⟩ := reach (H := H) puts
  obtain ⟨r, w', g', h2, h3, -, -⟩ := G.put a v
  refine ⟨w, h1, ?_⟩
  obtain ⟨m, hm⟩ := G.mem
  obtain ⟨s, hs, B⟩ := G.begun h2 hv
  refine ⟨s, by rw [interruptions, h2]; exact hs, ?_⟩
  obtain ⟨ch, hb⟩ := G.inv.loc.root
  obtain ⟨p, hp, hh⟩ := G.inv.wf.r.get hb
  have hroot : s.store.get [] = some p ∧ s.heap p = .branch [] ch := by
    refine ⟨?_, ?_⟩
    · rw [B.get [] (keyNibs_ne_nil a).symm]; exact hp
    · rw [B.heap p (G.inv.wf.alloc hp)]; exact hh
  have S : Settled a v ch s := ⟨B.mem, ⟨p, hroot⟩, B.key⟩
  have hc : ∀ i, ¬ ((ch i).exist = true ∧ (ch i).hash = zeroHash) := by
    rintro i ⟨h4, h5⟩
    have hl := G.inv.clean [] ch i hb h4
    have ht := (G.inv.loc.child hb h4).2
    cases ho : w.view ([] ++ (ch i).suffix) with
    | none => exact ht ho
    | some o =>
      have := hl o ho
      rw [h5] at this
      cases o <;> exact hH _ this.symm
  intro n
  obtain ⟨s', e1, S'⟩ := S.run (H := H) hc n
  obtain ⟨p', hp', hb'⟩ := S'.root
  refine ⟨s', e1, ?_, ?_, ?_⟩
  · obtain ⟨s'', e2, -⟩ := S'.again (H := H) hc
    exact ⟨s'', e2⟩
  · rcases S'.key with ⟨q, f1, f2⟩ | ⟨f1, f2⟩
    · exact ⟨some v, by simp only [Tree.getEntry, TM.bind_eq, Tree.getNode, f1, Tree.deref, f2]; rfl, rfl⟩
    · exact ⟨none, by simp only [Tree.getEntry, TM.bind_eq, Tree.getNode, f2]; rfl, f1.symm⟩
  · rw [← root_hash G.inv.loc G.inv.clean G.inv.map hb]
    have : Tree.asBranch p' s' = some (([], ch), s') := by
      simp only [Tree.asBranch, TM.bind_eq, Tree.deref, hb']; rfl
    simp only [Tree.hash, TM.bind_eq, Tree.getNode, hp', this]
    rfl

/-- The hypotheses are met: from any tree, giving a key a value it does not have. -/
example (puts : List (Addr × Bytes)) (a : Addr) : Spec.final puts a ≠ (0 : UInt8) :: Spec.final puts a := by
  intro h; have := congrArg List.length h; simp at this

end Nimiq.Tree.Generic

namespace Nimiq.Tree

/-! ## C104: an interrupted `Flush` -/

/-- store_overlay.go:34-38: one entry is written down -/
def flushOne (lower : Store) (k : Nibbles) : Option Ptr → Option Store
  | none => lower.del k
  | some p => lower.put k p

/-- store_overlay.go:31-41: the states in which `Flush`, visiting the entries in the given order, can be interrupted: before and
after each call of the lower store and after each `delete`. -/
def flushStates : List (Nibbles × Option Ptr) → Store → GoMap (Option Ptr) → List Store
  | [], lower, d => [.overlay lower (some d)]
  | (k, n) :: rest, lower, d =>
    .overlay lower (some d) ::
      match flushOne lower k n with
      | none => []
      | some lower' => .overlay lower' (some d) :: flushStates rest lower' (mdel d k)

theorem overlay_get (lower : Store) (d : GoMap (Option Ptr)) (k : Nibbles) :
    (Store.overlay lower (some d)).get k = (mget d k).getD (lower.get k) := by
  simp only [Store.get, Option.bind_some]
  cases mget d k <;> rfl

theorem flushStates_spec : ∀ (order : List (Nibbles × Option Ptr)) (lower : Store) (d : GoMap (Option Ptr)),
    lower.Usable → NodupKeys d → NodupKeys order → (∀ e ∈ order, e ∈ d) → ∀ s ∈ flushStates order lower d,
      s.Usable ∧ (∃ l' d', s = .overlay l' (some d')) ∧ ∀ k, s.get k = (Store.overlay lower (some d)).get k
  | [], lower, d, hu, hd, _, _, s, hs => by
    rw [flushStates, List.mem_singleton] at hs
    subst hs
    exact ⟨⟨hu, d, rfl, hd⟩, ⟨_, _, rfl⟩, fun _ => rfl⟩
  | (k, n) :: rest, lower, d, hu, hd, ho, hsub, s, hs => by
    obtain ⟨lower', h1, h2, h3⟩ : ∃ l', flushOne lower k n = some l' ∧ l'.Usable ∧
        ∀ q, l'.get q = if q = k then n else lower.get q := by
      cases n with
      | none => exact Store.del_spec lower hu k
      | some p => exact Store.put_spec lower hu k p
    have hk : mget d k = some n := (mget_nodup hd).mpr (hsub _ (List.mem_cons_self ..))
    unfold NodupKeys at ho
    rw [List.map_cons, List.nodup_cons] at ho
    rw [flushStates, h1] at hs
    simp only [List.mem_cons] at hs
    rcases hs with rfl | rfl | hs
    · exact ⟨⟨hu, d, rfl, hd⟩, ⟨_, _, rfl⟩, fun _ => rfl⟩
    · refine ⟨⟨h2, d, rfl, hd⟩, ⟨_, _, rfl⟩, ?_⟩
      intro q
      rw [overlay_get, overlay_get, h3]
      split
      · rename_i e; rw [e, hk]; rfl
      · rfl
    · obtain ⟨e1, e2, e3⟩ := flushStates_spec rest lower' (mdel d k) h2 (hd.mdel k) ho.2 (by
        intro e he
        unfold mdel
        rw [List.mem_filter]
        refine ⟨hsub e (List.mem_cons_of_mem _ he), ?_⟩
        simp only [ne_eq, decide_eq_true_eq]
        intro h
        exact ho.1 (List.mem_map.mpr ⟨e, he, h⟩)) s hs
      refine ⟨e1, e2, ?_⟩
      intro q
      rw [e3 q, overlay_get, overlay_get, mget_mdel, h3]
      split
      · rename_i e; rw [e, hk]; rfl
      · rfl

theorem flushStates_last : ∀ (order : List (Nibbles × Option Ptr)) (lower lower' : Store) (d d' : GoMap (Option Ptr)),
    flushLoop order lower d = some (lower', d') → (flushStates order lower d).getLast? = some (.overlay lower' (some d'))
  | [], lower, lower', d, d', h => by
    simp only [flushLoop, Option.some.injEq, Prod.mk.injEq] at h
    rw [h.1, h.2]; rfl
  | (k, none) :: rest, lower, lower', d, d', h => by
    simp only [flushLoop, Option.bind_eq_bind, Option.bind_eq_some_iff] at h
    obtain ⟨l1, h1, h2⟩ := h
    have := flushStates_last rest l1 lower' (mdel d k) d' h2
    simp only [flushStates, flushOne, h1]
    rw [List.getLast?_cons_cons, List.getLast?_cons, this]; rfl
  | (k, some p) :: rest, lower, lower', d, d', h => by
    simp only [flushLoop, Option.bind_eq_bind, Option.bind_eq_some_iff] at h
    obtain ⟨l1, h1, h2⟩ := h
    have := flushStates_last rest l1 lower' (mdel d k) d' h2
    simp only [flushStates, flushOne, h1]
    rw [List.getLast?_cons_cons, List.getLast?_cons, this]; rfl

/-- **C104**: wherever a `Flush` is interrupted, the overlay reads as before, and a further `Flush`, in whatever order it visits
what is left, completes: the overlay is empty and the lower store reads as the overlay did at the beginning.  So interruptions
can be repeated any number of times. -/
theorem C104_flush_retry {lower : Store} {d : GoMap (Option Ptr)} (hu : (Store.overlay lower (some d)).Usable)
    {order : List (Nibbles × Option Ptr)} (hp : order.Perm d) (s : Store) (hs : s ∈ flushStates order lower d) :
    s.Usable ∧ (∀ k, s.get k = (Store.overlay lower (some d)).get k) ∧
    ∃ l' d', s = .overlay l' (some d') ∧ ∀ order' : List (Nibbles × Option Ptr), order'.Perm d' →
      ∃ l'', s.flush order' = some (.overlay l'' (some [])) ∧ ∀ k, l''.get k = (Store.overlay lower (some d)).get k := by
  obtain ⟨hl, d0, h0, hd⟩ := hu
  obtain rfl := Option.some.inj h0
  have hn : NodupKeys order := (hp.map (fun e : Nibbles × Option Ptr => e.1)).nodup_iff.mpr hd
  obtain ⟨e1, ⟨l', d', rfl⟩, e3⟩ := flushStates_spec order lower d hl hd hn (fun e he => hp.mem_iff.mp he) s hs
  refine ⟨e1, e3, l', d', rfl, ?_⟩
  intro order' hp'
  obtain ⟨hl', d1, h1, hd'⟩ := e1
  obtain rfl := Option.some.inj h1
  obtain ⟨l'', f1, f2, f3⟩ := flush_spec hl' hd' hp'
  exact ⟨l'', f1, fun k => (f3 k).trans (e3 k)⟩

/-- The states are those of `Flush`: the last one is its result. -/
theorem C104_states_end {lower : Store} {d : GoMap (Option Ptr)} {order : List (Nibbles × Option Ptr)} {s : Store}
    (h : (Store.overlay lower (some d)).flush order = some s) : (flushStates order lower d).getLast? = some s := by
  simp only [Store.flush, Option.bind_eq_bind, Option.bind_eq_some_iff] at h
  obtain ⟨⟨l', d'⟩, h1, h2⟩ := h
  obtain rfl := Option.some.inj h2
  exact flushStates_last order lower l' d d' h1

/-- A tree over an overlay whose `Flush` was interrupted is still the tree it was. -/
theorem C104_tree {w : World} {M : Spec.Mapping} {H : Bytes → Hash32} {lower : Store} {d : GoMap (Option Ptr)} (hr : Reach H w M)
    (hw : w.store = .overlay lower (some d)) {order : List (Nibbles × Option Ptr)} (hp : order.Perm d) (s : Store)
    (hs : s ∈ flushStates order lower d) :
    (∀ a, getEntry a { w with store := s } = some (if M a = [] then none else some (M a), { w with store := s })) ∧
      hash H { w with store := s } = some (Spec.rootHash H M, { w with store := s }) := by
  have I := hr.inv
  have hu := I.wf.usable
  rw [hw] at hu
  obtain ⟨e1, e2, -⟩ := C104_flush_retry hu hp s hs
  have hg : ∀ k, s.get k = w.store.get k := by rw [hw]; exact e2
  have hv : World.view { w with store := s } = w.view := by
    funext k; simp only [World.view, hg]
  have I' : TreeInv H { w with store := s } M := by
    refine ⟨⟨e1, ?_, ?_⟩, ?_, ?_, ?_⟩
    · intro k p h; simp only [hg] at h; exact I.wf.alloc h
    · intro k k' p h h'; simp only [hg] at h h'; exact I.wf.inj h h'
    · rw [hv]; exact I.loc
    · rw [hv]; exact I.clean
    · rw [hv]; exact I.map
  exact ⟨getEntry_spec I', hash_spec I'⟩

/-- An overlay with a changed and a removed node. -/
example : ([([1], none), ([], some 7)] : GoMap (Option Ptr)).Perm [([], some 7), ([1], none)] ∧
    (Store.overlay (.mem [([], 0), ([1], 1)]) (some [([], some 7), ([1], none)])).Usable ∧
    (flushStates [([1], none), ([], some 7)] (.mem [([], 0), ([1], 1)]) [([], some 7), ([1], none)]).length = 5 := by
  refine ⟨List.Perm.swap _ _ _, ⟨by simp [Store.Usable, NodupKeys], _, rfl, by simp [NodupKeys]⟩, by decide⟩

end Nimiq.Tree
