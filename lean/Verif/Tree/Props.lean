import Verif.Tree.Count
import Verif.Tree.Binding
import Verif.Tree.Frame
/-!
# Properties of the tree (C01-C07, C11-C14)
-/
namespace Nimiq.Tree

variable (H : Bytes → Hash32)

/-- Successive `PutEntry` calls; `none` if one of them panics. -/
def runPuts : List (Addr × Bytes) → World → Option World
  | [], w => some w
  | (a, v) :: rest, w =>
    match putEntry H a v w with
    | none => none
    | some (_, w') => runPuts rest w'

variable {H}

theorem final_snoc (puts a v) : Spec.final (puts ++ [(a, v)]) = Spec.set (Spec.final puts) a v := by
  funext b
  unfold Spec.final Spec.set
  rw [List.filter_append]
  by_cases h : b = a
  · subst h; simp
  · simp [h, Ne.symm h]

theorem final_foldl (puts) : Spec.final puts = puts.foldl (fun M e => Spec.set M e.1 e.2) (fun _ => []) := by
  have : ∀ puts' : List (Addr × Bytes), Spec.final puts'.reverse =
      puts'.reverse.foldl (fun M e => Spec.set M e.1 e.2) (fun _ => []) := by
    intro puts'
    induction puts' with
    | nil => rfl
    | cons e puts' ih =>
      obtain ⟨a, v⟩ := e
      rw [List.reverse_cons, final_snoc, List.foldl_append, ← ih]; rfl
  have := this puts.reverse
  rwa [List.reverse_reverse] at this

theorem runPuts_spec : ∀ (puts : List (Addr × Bytes)) {w : World} {M : Spec.Mapping}, TreeInv H w M →
    ∃ w', runPuts H puts w = some w' ∧ TreeInv H w' (puts.foldl (fun M e => Spec.set M e.1 e.2) M) := by
  intro puts
  induction puts with
  | nil => intro w M I; exact ⟨w, rfl, I⟩
  | cons e puts ih =>
    obtain ⟨a, v⟩ := e
    intro w M I
    obtain ⟨b, w1, e1, e2, _⟩ := putEntry_spec I a v
    obtain ⟨w2, f1, f2⟩ := ih e2
    exact ⟨w2, by simp only [runPuts, e1, f1], f2⟩

theorem runPuts_inv (puts : List (Addr × Bytes)) :
    ∃ w, runPuts H puts newWorld = some w ∧ TreeInv H w (Spec.final puts) := by
  rw [final_foldl]; exact runPuts_spec puts newWorld_inv

/-- C01. -/
theorem C01_last_write_wins (puts : List (Addr × Bytes)) :
    ∃ w, runPuts H puts newWorld = some w ∧ ∀ a,
      getEntry a w = some (if Spec.final puts a = [] then none else some (Spec.final puts a), w) := by
  obtain ⟨w, h, I⟩ := runPuts_inv (H := H) puts
  exact ⟨w, h, getEntry_spec I⟩

/-- `Spec.final` in words: the last put for a key decides. -/
theorem C01_final_last (before after : List (Addr × Bytes)) (a : Addr) (v : Bytes) (h : ∀ e ∈ after, e.1 ≠ a) :
    Spec.final (before ++ (a, v) :: after) a = v := by
  unfold Spec.final
  have : (before ++ (a, v) :: after).filter (fun e => decide (e.1 = a)) = before.filter (fun e => decide (e.1 = a)) ++ [(a, v)] := by
    rw [List.filter_append, List.filter_cons]
    have : after.filter (fun e => decide (e.1 = a)) = [] := by
      rw [List.filter_eq_nil_iff]; intro e he; simpa using h e he
    simp [this]
  rw [this]; simp

theorem C01_final_never (puts : List (Addr × Bytes)) (a : Addr) (h : ∀ e ∈ puts, e.1 ≠ a) : Spec.final puts a = [] := by
  unfold Spec.final
  have : puts.filter (fun e => decide (e.1 = a)) = [] := by
    rw [List.filter_eq_nil_iff]; intro e he; simpa using h e he
  rw [this]; rfl

/-- C02. -/
theorem C02_reports_change (puts : List (Addr × Bytes)) (a : Addr) (v : Bytes) :
    ∃ w b w', runPuts H puts newWorld = some w ∧ putEntry H a v w = some (b, w') ∧ (b = true ↔ Spec.final puts a ≠ v) := by
  obtain ⟨w, h, I⟩ := runPuts_inv (H := H) puts
  obtain ⟨b, w', e1, _, e3⟩ := putEntry_spec I a v
  exact ⟨w, b, w', h, e1, e3⟩

/-- C04, first half: `Hash()` is the Merkle-Patricia hash of the mapping. -/
theorem C04_root_hash (puts : List (Addr × Bytes)) :
    ∃ w, runPuts H puts newWorld = some w ∧ hash H w = some (Spec.rootHash H (Spec.final puts), w) := by
  obtain ⟨w, h, I⟩ := runPuts_inv (H := H) puts
  exact ⟨w, h, hash_spec I⟩

theorem view_some {w : World} {k p} (h : w.store.get k = some p) : w.view k = some (w.heap p) := by
  simp [World.view, h]

theorem get_of_view {w : World} {k} (h : w.view k ≠ none) : ∃ p, w.store.get k = some p ∧ w.view k = some (w.heap p) := by
  cases hg : w.store.get k with
  | none => exact absurd (by simp [World.view, hg]) h
  | some p => exact ⟨p, rfl, view_some hg⟩

/-- No stale hash: in every stored branch, every child's cached hash is the hash of the node stored at the child's path. -/
def NoStaleHash (H : Bytes → Hash32) (w : World) : Prop :=
  ∀ k p pfx ch i, w.store.get k = some p → w.heap p = .branch pfx ch → (ch i).exist = true →
    pfx = k ∧ ∃ q, w.store.get (k ++ (ch i).suffix) = some q ∧ (ch i).hash = objHash H (w.heap q)

theorem TreeInv.noStale {w M} (I : TreeInv H w M) : NoStaleHash H w := by
  intro k p pfx ch i hg hh he
  have hv := view_some hg
  rw [hh] at hv
  obtain ⟨rfl, _⟩ := I.loc.branch hv
  obtain ⟨q, h1, h2⟩ := get_of_view (I.loc.child hv he).2
  exact ⟨rfl, q, h1, I.clean _ _ _ hv he _ h2⟩

/-- C04, second half. -/
theorem C04_no_stale_hash (puts : List (Addr × Bytes)) :
    ∃ w, runPuts H puts newWorld = some w ∧ NoStaleHash H w := by
  obtain ⟨w, h, I⟩ := runPuts_inv (H := H) puts
  exact ⟨w, h, I.noStale⟩

/-- C03. -/
theorem C03_history_independent (puts puts' : List (Addr × Bytes)) (h : Spec.final puts = Spec.final puts') :
    ∃ w w' r, runPuts H puts newWorld = some w ∧ runPuts H puts' newWorld = some w' ∧
      hash H w = some (r, w) ∧ hash H w' = some (r, w') := by
  obtain ⟨w, h1, I⟩ := runPuts_inv (H := H) puts
  obtain ⟨w', h1', I'⟩ := runPuts_inv (H := H) puts'
  exact ⟨w, w', _, h1, h1', hash_spec I, by rw [h]; exact hash_spec I'⟩

/-- C05: equal root hashes mean equal mappings, or one of the byte strings hashed for the first tree collides with a
different one hashed for the second. -/
theorem C05_binding (puts puts' : List (Addr × Bytes)) {w w' : World} {r : Hash32}
    (h : runPuts H puts newWorld = some w) (h' : runPuts H puts' newWorld = some w')
    (hr : hash H w = some (r, w)) (hr' : hash H w' = some (r, w')) :
    Spec.final puts = Spec.final puts' ∨
      ∃ x ∈ Spec.rootStrings H (Spec.final puts), ∃ y ∈ Spec.rootStrings H (Spec.final puts'), x ≠ y ∧ H x = H y := by
  obtain ⟨w1, h1, I⟩ := runPuts_inv (H := H) puts
  obtain ⟨w1', h1', I'⟩ := runPuts_inv (H := H) puts'
  rw [h] at h1; rw [h'] at h1'
  simp only [Option.some.injEq] at h1 h1'
  subst h1; subst h1'
  rw [hash_spec I] at hr; rw [hash_spec I'] at hr'
  simp only [Option.some.injEq, Prod.mk.injEq, and_true] at hr hr'
  exact root_binding (hr.trans hr'.symm)

/-- When no two different strings hashed for the two trees collide, equal root hashes mean that every `GetEntry` answers the
same. (No hash function is injective: the hypothesis is about the strings of the two trees only.) -/
theorem C05_binding_no_collision (puts puts' : List (Addr × Bytes))
    (hH : ∀ x ∈ Spec.rootStrings H (Spec.final puts), ∀ y ∈ Spec.rootStrings H (Spec.final puts'), H x = H y → x = y)
    {w w' : World} {r : Hash32}
    (h : runPuts H puts newWorld = some w) (h' : runPuts H puts' newWorld = some w')
    (hr : hash H w = some (r, w)) (hr' : hash H w' = some (r, w')) (a : Addr) :
    (getEntry a w).map (·.1) = (getEntry a w').map (·.1) := by
  rcases C05_binding puts puts' h h' hr hr' with e | ⟨x, hx, y, hy, hxy, e⟩
  · obtain ⟨w1, h1, h2⟩ := C01_last_write_wins (H := H) puts
    obtain ⟨w1', h1', h2'⟩ := C01_last_write_wins (H := H) puts'
    rw [h] at h1; rw [h'] at h1'
    simp only [Option.some.injEq] at h1 h1'
    subst h1; subst h1'
    rw [h2 a, h2' a, e]; rfl
  · exact absurd (hH x hx y hy e) hxy

/-- C07. -/
theorem C07_no_panic (puts : List (Addr × Bytes)) : ∃ w, runPuts H puts newWorld = some w ∧ ∀ a v,
    (getEntry a w).isSome ∧ (putEntry H a v w).isSome ∧ (hash H w).isSome := by
  obtain ⟨w, h, I⟩ := runPuts_inv (H := H) puts
  refine ⟨w, h, fun a v => ⟨by rw [getEntry_spec I]; rfl, ?_, by rw [hash_spec I]; rfl⟩⟩
  obtain ⟨b, w', e, _⟩ := putEntry_spec I a v
  rw [e]; rfl

/-! ## C06 -/

theorem runPuts_mem : ∀ (puts : List (Addr × Bytes)) {w w'}, runPuts H puts w = some w' → (∃ n, w.store = .mem n) →
    ∃ n, w'.store = .mem n := by
  intro puts
  induction puts with
  | nil => intro w w' h hm; simp only [runPuts, Option.some.injEq] at h; rw [← h]; exact hm
  | cons e puts ih =>
    obtain ⟨a, v⟩ := e
    intro w w' h hm
    simp only [runPuts] at h
    cases hp : putEntry H a v w with
    | none => rw [hp] at h; simp at h
    | some r =>
      obtain ⟨b, w1⟩ := r
      rw [hp] at h
      exact ih h (memProp.kputEntry a v _ _ _ hp hm)

/-- At `k` at least two mapped keys diverge. -/
def Diverge (M : Spec.Mapping) (k : Nibbles) : Prop :=
  ∃ a b i j, M a ≠ [] ∧ M b ≠ [] ∧ i ≠ j ∧ k ++ [i] <+: Spec.nibbles a ∧ k ++ [j] <+: Spec.nibbles b

theorem TreeInv.leaf_iff {w M} (I : TreeInv H w M) (k pfx : Nibbles) (v : Bytes) :
    w.view k = some (.leaf pfx v) ↔ pfx = k ∧ v ≠ [] ∧ ∃ a, k = Spec.nibbles a ∧ M a = v := by
  constructor
  · intro h
    obtain ⟨rfl, h2, h3⟩ := I.loc.leaf h
    obtain ⟨a, rfl⟩ := keyNibs_surj h2
    refine ⟨rfl, h3, a, keyNibs_eq a, ?_⟩
    rw [I.map a] at h
    split at h
    · simp at h
    · simpa using h
  · rintro ⟨rfl, h2, a, rfl, rfl⟩
    have := I.map a
    rw [if_neg h2, keyNibs_eq] at this
    exact this

theorem TreeInv.branch_iff {w M} (I : TreeInv H w M) (k : Nibbles) :
    (∃ pfx ch, w.view k = some (.branch pfx ch)) ↔ (k = [] ∨ Diverge M k) := by
  constructor
  · rintro ⟨pfx, ch, h⟩
    obtain ⟨rfl, hlt⟩ := I.loc.branch h
    by_cases hk : pfx = []
    · exact .inl hk
    right
    obtain ⟨i, j, hij, hi, hj⟩ := I.loc.two h hk
    obtain ⟨q, v, h1, h2⟩ := leaf_below_child I.loc h hi
    obtain ⟨q', v', h1', h2'⟩ := leaf_below_child I.loc h hj
    obtain ⟨-, hv, a, rfl, ha⟩ := (I.leaf_iff q q v).mp h2
    obtain ⟨-, hv', b, rfl, hb⟩ := (I.leaf_iff q' q' v').mp h2'
    exact ⟨a, b, i, j, by rw [ha]; exact hv, by rw [hb]; exact hv', hij, h1, h1'⟩
  · rintro (rfl | ⟨a, b, i, j, ha, hb, hij, h1, h2⟩)
    · obtain ⟨ch, h⟩ := I.loc.root
      exact ⟨[], ch, h⟩
    · have e1 := (I.leaf_iff _ _ _).mpr ⟨rfl, ha, a, rfl, rfl⟩
      have e2 := (I.leaf_iff _ _ _).mpr ⟨rfl, hb, b, rfl, rfl⟩
      obtain ⟨ch, h⟩ := branch_at_divergence I.loc (by rw [e1]; simp) (by rw [e2]; simp) h1 h2 hij
      exact ⟨k, ch, h⟩

/-- The child slots of a stored branch: slot `i` is used iff some mapped key continues with nibble `i`. -/
theorem TreeInv.slot_iff {w M} (I : TreeInv H w M) {k pfx ch} (h : w.view k = some (.branch pfx ch)) (i : Nib) :
    (ch i).exist = true ↔ ∃ a, M a ≠ [] ∧ k ++ [i] <+: Spec.nibbles a := by
  obtain ⟨rfl, hlt⟩ := I.loc.branch h
  constructor
  · intro hi
    obtain ⟨q, v, h1, h2⟩ := leaf_below_child I.loc h hi
    obtain ⟨-, hv, a, rfl, ha⟩ := (I.leaf_iff q q v).mp h2
    exact ⟨a, by rw [ha]; exact hv, h1⟩
  · rintro ⟨a, ha, hp⟩
    have e1 := (I.leaf_iff _ _ _).mpr ⟨rfl, ha, a, rfl, rfl⟩
    have hb : Br w.view pfx ch := h
    have hl := hp.length_le
    simp only [List.length_append, List.length_singleton] at hl
    obtain ⟨c, ⟨ch', j, s, h1, h2, h3, rfl⟩, hc⟩ := hb.route I.loc (by rw [e1]; simp)
      ((List.prefix_append _ _).trans hp) (by omega)
    have := hb.unique h1
    subst this
    have hj : pfx ++ [j] <+: Spec.nibbles a := (snoc_pre_cons.mpr rfl : pfx ++ [j] <+: pfx ++ j :: s).trans hc
    have := pre_len_eq hj hp (by simp)
    simp only [List.append_cancel_left_eq, List.cons.injEq, and_true] at this
    rw [← this]; exact h2

/-- C06: what is in the `MemStore` after any put sequence. `keys` is any list that contains all mapped keys. -/
theorem C06_canonical_nodes (puts : List (Addr × Bytes)) :
    ∃ w nodes, runPuts H puts newWorld = some w ∧ w.store = .mem nodes ∧ (nodes.map (·.1)).Nodup ∧
      (∀ k pfx v, (∃ p, (k, p) ∈ nodes ∧ w.heap p = .leaf pfx v) ↔
        pfx = k ∧ v ≠ [] ∧ ∃ a, k = Spec.nibbles a ∧ Spec.final puts a = v) ∧
      (∀ k, (∃ p pfx ch, (k, p) ∈ nodes ∧ w.heap p = .branch pfx ch) ↔ (k = [] ∨ Diverge (Spec.final puts) k)) ∧
      (∀ k p pfx ch, (k, p) ∈ nodes → w.heap p = .branch pfx ch → pfx = k ∧ ∀ i,
        (ch i).exist = true ↔ ∃ a, Spec.final puts a ≠ [] ∧ k ++ [i] <+: Spec.nibbles a) ∧
      (∀ keys : List Addr, (∀ a, Spec.final puts a ≠ [] → a ∈ keys) → nodes.length ≤ 2 * keys.length + 1) := by
  obtain ⟨w, h, I⟩ := runPuts_inv (H := H) puts
  obtain ⟨nodes, hn⟩ := runPuts_mem puts h ⟨_, rfl⟩
  have hnd : NodupKeys nodes := by have := I.wf.usable; rw [hn] at this; exact this
  have hmem : ∀ k p, (k, p) ∈ nodes ↔ w.store.get k = some p := by
    intro k p; rw [hn]; exact (mget_nodup hnd).symm
  have hv : ∀ k o, (∃ p, (k, p) ∈ nodes ∧ w.heap p = o) ↔ w.view k = some o := by
    intro k o
    simp only [hmem, World.view, Option.map_eq_some_iff]
  refine ⟨w, nodes, h, hn, hnd, ?_, ?_, ?_, ?_⟩
  · intro k pfx v
    rw [hv, I.leaf_iff]
  · intro k
    rw [← I.branch_iff]
    constructor
    · rintro ⟨p, pfx, ch, h1, h2⟩; exact ⟨pfx, ch, (hv _ _).mp ⟨p, h1, h2⟩⟩
    · rintro ⟨pfx, ch, h1⟩
      obtain ⟨p, h2, h3⟩ := (hv _ _).mpr h1
      exact ⟨p, pfx, ch, h2, h3⟩
  · intro k p pfx ch h1 h2
    have hb := (hv _ _).mp ⟨p, h1, h2⟩
    exact ⟨(I.loc.branch hb).1, fun i => I.slot_iff hb i⟩
  · intro keys hk
    have := node_count I.loc (keys := keys) (nodes := nodes.map (fun e : Nibbles × Ptr => e.1)) (fun a ha => hk a (by
      intro h0; rw [I.map a, if_pos h0] at ha; exact ha rfl)) hnd (by
      intro k hk'
      obtain ⟨⟨k', p⟩, h1, rfl⟩ := List.mem_map.mp hk'
      rw [(hv _ _).mp ⟨p, h1, rfl⟩]; simp)
    rwa [List.length_map] at this

/-! ## C11: overlay stores -/

/-- Writing operations on a store. -/
inductive StoreOp where
  | put (k : Nibbles) (p : Ptr)
  | del (k : Nibbles)
  | flush

/-- One successful operation; a flush may visit the entries in any order. -/
inductive Step : Store → StoreOp → Store → Prop where
  | put {s s' k p} : s.put k p = some s' → Step s (.put k p) s'
  | del {s s' k} : s.del k = some s' → Step s (.del k) s'
  | flush {lower d order s'} : order.Perm d → (Store.overlay lower (some d)).flush order = some s' →
      Step (.overlay lower (some d)) .flush s'

inductive Steps : Store → List StoreOp → Store → Prop where
  | nil {s} : Steps s [] s
  | cons {s op s1 ops s2} : Step s op s1 → Steps s1 ops s2 → Steps s (op :: ops) s2

/-- Specification: the last write to `k`: `none` if there is none, `some none` if it is a deletion. -/
def lastWrite (ops : List StoreOp) (k : Nibbles) : Option (Option Ptr) :=
  (ops.filterMap fun
    | .put k' p => if k' = k then some (some p) else none
    | .del k' => if k' = k then some none else none
    | .flush => none).getLast?

theorem step_spec {lower : Store} {d : GoMap (Option Ptr)} {op s'} (hu : (Store.overlay lower (some d)).Usable)
    (h : Step (.overlay lower (some d)) op s') : ∃ lower' d', s' = .overlay lower' (some d') ∧ s'.Usable ∧
      (∀ k, s'.get k = (lastWrite [op] k).getD ((Store.overlay lower (some d)).get k)) ∧
      (op ≠ .flush → lower' = lower) ∧ (op = .flush → d' = [] ∧ ∀ k, lower'.get k = (Store.overlay lower (some d)).get k) := by
  cases h with
  | put h =>
    rename_i k p
    obtain ⟨s1, h1, h2, h3⟩ := Store.put_spec _ hu k p
    rw [h] at h1; simp only [Option.some.injEq] at h1; subst h1
    simp only [Store.put, Option.some.injEq] at h
    subst h
    refine ⟨_, _, rfl, h2, ?_, by simp, by simp⟩
    intro q
    rw [h3]
    by_cases hq : q = k
    · subst hq; simp [lastWrite]
    · simp [lastWrite, hq, Ne.symm hq]
  | del h =>
    rename_i k
    obtain ⟨s1, h1, h2, h3⟩ := Store.del_spec _ hu k
    rw [h] at h1; simp only [Option.some.injEq] at h1; subst h1
    simp only [Store.del, Option.some.injEq] at h
    subst h
    refine ⟨_, _, rfl, h2, ?_, by simp, by simp⟩
    intro q
    rw [h3]
    by_cases hq : q = k
    · subst hq; simp [lastWrite]
    · simp [lastWrite, hq, Ne.symm hq]
  | flush hp h =>
    obtain ⟨h1, d0, h2, h3⟩ := hu
    simp only [Option.some.injEq] at h2
    subst h2
    obtain ⟨l', e1, e2, e3⟩ := flush_spec h1 h3 hp
    rw [e1] at h
    simp only [Option.some.injEq] at h
    subst h
    refine ⟨l', [], rfl, ⟨e2, _, rfl, by simp [NodupKeys]⟩, ?_, by simp, fun _ => ⟨rfl, e3⟩⟩
    intro k
    simp only [lastWrite, List.filterMap_cons, List.filterMap_nil, List.getLast?_nil, Option.getD_none]
    rw [← e3 k]; simp [Store.get, mget]

theorem lastWrite_cons (op ops k) : lastWrite (op :: ops) k = (lastWrite ops k).or (lastWrite [op] k) := by
  have : op :: ops = [op] ++ ops := rfl
  rw [this]
  unfold lastWrite
  rw [List.filterMap_append, List.getLast?_append]

/-- C11, progress: no operation on an initialised overlay panics, whatever the iteration order. -/
theorem C11_progress {lower : Store} {d : GoMap (Option Ptr)} (hu : (Store.overlay lower (some d)).Usable) :
    (∀ k p, ((Store.overlay lower (some d)).put k p).isSome) ∧ (∀ k, ((Store.overlay lower (some d)).del k).isSome) ∧
      (∀ order, order.Perm d → ((Store.overlay lower (some d)).flush order).isSome) := by
  refine ⟨fun _ _ => rfl, fun _ => rfl, ?_⟩
  intro order hp
  obtain ⟨h1, d0, h2, h3⟩ := hu
  simp only [Option.some.injEq] at h2
  subst h2
  obtain ⟨l', e1, e2, e3⟩ := flush_spec h1 h3 hp
  rw [e1]; rfl

/-- C11: any sequence of operations. (1) `GetNode` shows the last write over what the store showed before; (2) without a
flush the lower store is the very same store; (3) if the last operation is a flush, the overlay is empty and the lower
store answers every `GetNode` like the overlay; (4) writes after the last flush leave the lower store as the flush left it. -/
theorem C11_overlay {lower : Store} {d : GoMap (Option Ptr)} {ops : List StoreOp} {s' : Store}
    (hu : (Store.overlay lower (some d)).Usable) (h : Steps (.overlay lower (some d)) ops s') :
    ∃ lower' d', s' = .overlay lower' (some d') ∧
      (∀ k, s'.get k = (lastWrite ops k).getD ((Store.overlay lower (some d)).get k)) ∧
      ((∀ op ∈ ops, op ≠ .flush) → lower' = lower) ∧
      (∀ ops1 ops2, ops = ops1 ++ .flush :: ops2 → (∀ op ∈ ops2, op ≠ .flush) →
        (∀ k, lower'.get k = (lastWrite ops1 k).getD ((Store.overlay lower (some d)).get k)) ∧ (ops2 = [] → d' = [])) := by
  induction ops generalizing lower d with
  | nil =>
    cases h
    exact ⟨lower, d, rfl, fun k => by simp [lastWrite], fun _ => rfl, by intro o1 o2 h; simp at h⟩
  | cons op ops ih =>
    cases h with
    | cons hs hr =>
      obtain ⟨l1, d1, rfl, u1, g1, nf1, f1⟩ := step_spec hu hs
      obtain ⟨l2, d2, rfl, g2, nf2, f2⟩ := ih u1 hr
      refine ⟨l2, d2, rfl, ?_, ?_, ?_⟩
      · intro k
        rw [g2, g1, lastWrite_cons op ops]
        cases lastWrite ops k <;> simp
      · intro hn
        rw [nf2 (fun o ho => hn o (by simp [ho])), nf1 (hn op (by simp))]
      · intro ops1 ops2 he hn
        cases ops1 with
        | nil =>
          simp only [List.nil_append, List.cons.injEq] at he
          obtain ⟨rfl, rfl⟩ := he
          obtain ⟨hd, hg⟩ := f1 rfl
          have := nf2 hn
          subst this
          refine ⟨fun k => by rw [hg]; simp [lastWrite], ?_⟩
          rintro rfl
          cases hr
          exact hd
        | cons op' ops1 =>
          simp only [List.cons_append, List.cons.injEq] at he
          obtain ⟨rfl, rfl⟩ := he
          obtain ⟨a1, a2⟩ := f2 ops1 ops2 rfl hn
          refine ⟨fun k => ?_, a2⟩
          rw [a1, g1, lastWrite_cons op ops1]
          cases lastWrite ops1 k <;> simp

/-! ## C12-C14: trees over overlays -/

/-- C12 fails: the node the lower store returns for the root changes before any flush, for every first entry. The lower
store is the fresh `MemStore`, whose root branch has no children. -/
theorem C12_violated (a : Addr) (v : Bytes) (hv : v ≠ []) :
    ∃ b w', putEntry H a v { newWorld with store := .overlay newWorld.store (some []) } = some (b, w') ∧
      (∃ d, w'.store = .overlay newWorld.store d) ∧
      (newWorld.store.get []).map newWorld.heap = some (.branch [] fun _ => Child.zero) ∧
      ∃ pfx ch i, (newWorld.store.get []).map w'.heap = some (.branch pfx ch) ∧ (ch i).exist = true := by
  have I := push_inv (newWorld_inv (H := H))
  obtain ⟨b, w', e, _, _⟩ := putEntry_spec I a v
  refine ⟨b, w', e, (overlayProp newWorld.store).kputEntry a v _ _ _ e ⟨_, rfl⟩, rfl, ?_⟩
  have hvl : v.length ≠ 0 := fun h => hv (List.length_eq_zero_iff.mp h)
  have hne : keyNibs a ≠ [] := by intro h; have := keyNibs_length a; rw [h] at this; simp at this
  obtain ⟨i, s, his⟩ : ∃ i s, keyNibs a = i :: s := by
    cases h : keyNibs a with
    | nil => exact absurd h hne
    | cons i s => exact ⟨i, s, rfl⟩
  have hg0 : ∀ k, k ≠ [] → Store.get (.overlay newWorld.store (some [])) k = none := by
    intro k hk; simp [Store.get, mget, newWorld, Ne.symm hk]
  -- the update changes the branch object at address 0
  have upd : ∃ w1, updateEntry a v { newWorld with store := .overlay newWorld.store (some []) } = some (true, w1) ∧
      ∃ pfx ch, w1.heap 0 = .branch pfx ch ∧ (ch i).exist = true := by
    have hg := hg0 _ hne
    have hpre : prefixOf [] (keyNibs a) = true := by unfold prefixOf; simp
    refine ⟨{ heap := fun q => if q = 0 then .branch [] (setChild (fun _ => Child.zero) i ⟨i :: s, zeroHash, true⟩)
                else if q = 1 then .leaf (keyNibs a) v else newWorld.heap q,
              next := 2, store := .overlay newWorld.store (some (mput (mput [] (keyNibs a) (some 1)) [] (some 0))) },
      ?_, [], setChild (fun _ => Child.zero) i ⟨i :: s, zeroHash, true⟩, by simp, by simp [setChild]⟩
    simp only [updateEntry, TM.bind_eq, getNode, hg, hvl, if_false]
    obtain ⟨f, hf⟩ : ∃ f, maxDepth = f + 1 := ⟨63, rfl⟩
    rw [hf]
    simp only [update]
    simp only [hpre, not_true_eq_false, if_false, Ne.symm hne, TM.bind_eq, getNode, asBranch, deref, his, List.drop_zero,
      List.length_nil, Child.zero, Pure.pure, TM.pure, newWorld, Store.get, mget, List.find?_nil, Option.map_none, Option.bind_some,
      List.find?_cons, decide_true, Option.map_some, alloc, putNode, Store.put, sliceFrom, Nat.zero_le, if_true, withChild, write,
      invalidatePath]
    rfl
  obtain ⟨w1, u1, u2⟩ := upd
  simp only [putEntry, TM.bind_eq, u1] at e
  cases hh : updateHashes H maxDepth [] w1 with
  | none => rw [hh] at e; simp at e
  | some r =>
    obtain ⟨x, w2⟩ := r
    rw [hh] at e
    simp only [Pure.pure, TM.pure, Option.some.injEq, Prod.mk.injEq] at e
    obtain ⟨-, rfl⟩ := e
    obtain ⟨pfx, ch, h1, h2⟩ := kexist_hashes 0 i _ _ _ _ _ hh u2
    exact ⟨pfx, ch, i, by simp [newWorld, Store.get, mget, h1], h2⟩

/-- C12, what does hold: the lower store keeps the same path-to-pointer map through any number of puts. -/
theorem C12_partial (puts : List (Addr × Bytes)) {w w' : World} {lower : Store} {d}
    (hw : w.store = .overlay lower d) (h : runPuts H puts w = some w') : ∃ d', w'.store = .overlay lower d' := by
  induction puts generalizing w d with
  | nil => simp only [runPuts, Option.some.injEq] at h; rw [← h]; exact ⟨d, hw⟩
  | cons e puts ih =>
    obtain ⟨a, v⟩ := e
    simp only [runPuts] at h
    cases hp : putEntry H a v w with
    | none => rw [hp] at h; simp at h
    | some r =>
      obtain ⟨b, w1⟩ := r
      rw [hp] at h
      obtain ⟨d1, h1⟩ := (overlayProp lower).kputEntry a v _ _ _ hp ⟨d, hw⟩
      exact ih h1 h

/-- Histories of a tree: puts, wrapping the store in a new initialised overlay, and flushing the top overlay. The third
argument is the mapping the puts have produced. -/
inductive Reach (H : Bytes → Hash32) : World → Spec.Mapping → Prop where
  | fresh : Reach H newWorld (fun _ => [])
  | put {w M a v b w'} : Reach H w M → putEntry H a v w = some (b, w') → Reach H w' (Spec.set M a v)
  | push {w M} : Reach H w M → Reach H { w with store := .overlay w.store (some []) } M
  | flush {w M lower d order s'} : Reach H w M → w.store = .overlay lower (some d) → order.Perm d →
      w.store.flush order = some s' → Reach H { w with store := s' } M

theorem Reach.inv {w M} (h : Reach H w M) : TreeInv H w M := by
  induction h with
  | fresh => exact newWorld_inv
  | put _ hp ih =>
    obtain ⟨b, w', e1, e2, _⟩ := putEntry_spec ih _ _
    rw [hp] at e1
    simp only [Option.some.injEq, Prod.mk.injEq] at e1
    rw [e1.2]; exact e2
  | push _ ih => exact push_inv ih
  | flush _ hw hp hf ih =>
    obtain ⟨s1, e1, e2⟩ := flush_inv ih hw hp
    rw [hf] at e1
    simp only [Option.some.injEq] at e1
    subst e1; exact e2

/-- C13: with any history of overlays, the tree is still the map `M`, its root hash is the canonical one, no cached hash
is stale and no operation panics. -/
theorem C13_overlay_tree {w : World} {M : Spec.Mapping} (h : Reach H w M) :
    (∀ a, getEntry a w = some (if M a = [] then none else some (M a), w)) ∧
    hash H w = some (Spec.rootHash H M, w) ∧ NoStaleHash H w ∧
    (∀ a v, ∃ b w', putEntry H a v w = some (b, w') ∧ (b = true ↔ M a ≠ v)) ∧
    (∀ lower d order, w.store = .overlay lower (some d) → order.Perm d → (w.store.flush order).isSome) := by
  have I := h.inv
  refine ⟨getEntry_spec I, hash_spec I, I.noStale, ?_, ?_⟩
  · intro a v
    obtain ⟨b, w', e1, _, e3⟩ := putEntry_spec I a v
    exact ⟨b, w', e1, e3⟩
  · intro lower d order hw hp
    obtain ⟨s', e, _⟩ := flush_inv I hw hp
    rw [e]; rfl

/-- C14 fails: `OverlayStore{Lower: s}` has a nil map; every write panics. -/
theorem C14_violated (lower : Store) : (∀ k p, (Store.overlay lower none).put k p = none) ∧
    (∀ k, (Store.overlay lower none).del k = none) := ⟨fun _ _ => rfl, fun _ => rfl⟩

theorem bind_none {α β} {m : TM α} {f : α → TM β} {w : World} (h : ∀ x w', m w = some (x, w') → f x w' = none) :
    (m >>= f) w = none := by
  rw [TM.bind_eq]
  cases hm : m w with
  | none => rfl
  | some r => exact h _ _ hm

theorem nil_updateHashes (lower : Store) {fuel : Nat} {k : Nibbles} {w x w'} (hw : w.store = .overlay lower none)
    (h : updateHashes H fuel k w = some (x, w')) : ∃ q p v, w.store.get k = some p ∧ w.heap p = .leaf q v := by
  cases fuel with
  | zero => simp [updateHashes, TM.panic] at h
  | succ fuel =>
    cases hg : w.store.get k with
    | none => simp [updateHashes, TM.bind_eq, getNode, hg, TM.panic] at h
    | some p =>
      cases hh : w.heap p with
      | leaf q v => exact ⟨q, p, v, rfl, hh⟩
      | branch q ch =>
        exfalso
        simp only [updateHashes, TM.bind_eq, getNode, hg, deref, hh] at h
        cases hl : hashLoop (updateHashes H fuel) k p (List.finRange 16) w with
        | none => rw [hl] at h; simp at h
        | some r =>
          obtain ⟨u, w1⟩ := r
          rw [hl] at h
          have hs : ∃ d, w1.store = .overlay lower d ∧ d = none := by
            have hP : StoreProp (fun s => s = .overlay lower none) :=
              ⟨by rintro s k p s' rfl h; simp [Store.put] at h, by rintro s k s' rfl h; simp [Store.del] at h⟩
            exact ⟨none, hP.khashLoop (fun _ => hP.kupdateHashes _ _) _ _ _ _ _ _ hl hw, rfl⟩
          obtain ⟨d, hs, rfl⟩ := hs
          cases ha : asBranch p w1 with
          | none => simp [ha] at h
          | some r =>
            obtain ⟨⟨np, ch'⟩, w2⟩ := r
            have : w2 = w1 := by
              have := Keeps.asBranch (P := fun w => w = w1) p _ _ _ ha rfl
              exact this
            subst this
            simp [ha, putNode, hs, Store.put] at h

/-- C14, consequence: `PutEntry` on a tree over such an overlay panics for every key and value, whenever the lower store
has a branch at the root (as every tree does). -/
theorem C14_putEntry_panics (lower : Store) (w : World) (hw : w.store = .overlay lower none)
    (hroot : ∀ p, lower.get [] = some p → ∃ pfx ch, w.heap p = .branch pfx ch) (a : Addr) (v : Bytes) :
    putEntry H a v w = none := by
  have hP : StoreProp (fun s => s = .overlay lower none) :=
    ⟨by rintro s k p s' rfl h; simp [Store.put] at h, by rintro s k s' rfl h; simp [Store.del] at h⟩
  cases h : putEntry H a v w with
  | none => rfl
  | some r =>
    exfalso
    obtain ⟨b, w'⟩ := r
    -- a successful update would have written to the store
    have key : ∀ fuel np q u path w0, w0.store = .overlay lower none → update fuel np q u path w0 = none := by
      intro fuel
      induction fuel with
      | zero => intros; rfl
      | succ fuel ih =>
        intro np q u path w0 h0
        unfold update
        split
        · exact bind_none fun _ w1 e1 => bind_none fun _ w2 e2 => by
            have := hP.kalloc _ _ _ _ e1 h0
            simp [putNode, this, Store.put] at e2
        · split
          · split
            · exact bind_none fun _ w2 e2 => by simp [delNode, h0, Store.del] at e2
            · exact bind_none fun _ w1 e1 => bind_none fun _ w2 e2 => by
                have := hP.kalloc _ _ _ _ e1 h0
                simp [putNode, this, Store.put] at e2
          · refine bind_none fun r w1 e1 => ?_
            have h1 := Keeps.getNode (P := fun w => w.store = .overlay lower none) _ _ _ _ e1 h0
            cases r with
            | none => rfl
            | some node =>
              refine bind_none fun r w2 e2 => ?_
              have h2 := Keeps.asBranch (P := fun w => w.store = .overlay lower none) _ _ _ _ e2 h1
              obtain ⟨npfx, ch⟩ := r
              simp only
              cases hd : List.drop npfx.length q with
              | nil => rfl
              | cons i s =>
                simp only
                by_cases hex : (ch i).exist = true
                · rw [if_pos hex]; exact ih _ _ _ _ _ h2
                · rw [if_neg hex]
                  exact bind_none fun _ w1 e1 => bind_none fun _ w3 e3 => by
                    have := hP.kalloc _ _ _ _ e1 h2
                    simp [putNode, this, Store.put] at e3
    have hgk : ∀ k, (Store.overlay lower none).get k = lower.get k := by intro k; simp [Store.get]
    unfold putEntry at h
    rw [TM.bind_eq] at h
    cases hu : updateEntry a v w with
    | none => rw [hu] at h; simp at h
    | some r =>
      obtain ⟨c, w1⟩ := r
      rw [hu] at h
      -- the update can only have been skipped
      have hsame : w1 = w := by
        cases hg : w.store.get (keyNibs a) with
        | none =>
          simp only [updateEntry, TM.bind_eq, getNode, hg] at hu
          by_cases hv : v.length = 0
          · simp only [hv, if_true, Pure.pure, TM.pure, Option.some.injEq, Prod.mk.injEq] at hu
            exact hu.2.symm
          · simp [hv, TM.bind_eq, key _ _ _ _ _ w hw] at hu
        | some p =>
          cases hh : w.heap p with
          | leaf lp u =>
            simp only [updateEntry, TM.bind_eq, getNode, hg, deref, hh] at hu
            by_cases hv : u = v
            · simp only [hv, if_true, Pure.pure, TM.pure, Option.some.injEq, Prod.mk.injEq] at hu
              exact hu.2.symm
            · simp [hv, TM.bind_eq, key _ _ _ _ _ w hw] at hu
          | branch lp ch =>
            simp [updateEntry, TM.bind_eq, getNode, hg, deref, hh, key _ _ _ _ _ w hw] at hu
      subst hsame
      simp only [TM.bind_eq] at h
      cases hh : updateHashes H maxDepth [] w1 with
      | none => rw [hh] at h; simp at h
      | some r =>
        obtain ⟨x, w2⟩ := r
        obtain ⟨q, p, u, h1, h2⟩ := nil_updateHashes lower hw hh
        rw [hw, hgk] at h1
        obtain ⟨pfx, ch, h3⟩ := hroot p h1
        rw [h2] at h3; simp at h3

/-! ## Non-vacuity -/

/-- Two keys that differ in the last byte. -/
def exA : Addr := ⟨List.replicate 19 7 ++ [0x12], by decide⟩
def exB : Addr := ⟨List.replicate 19 7 ++ [0x13], by decide⟩

/-- Two different histories with the same final mapping (C03, C05). -/
example : Spec.final [(exA, [1]), (exB, [2]), (exA, [])] = Spec.final [(exB, [5]), (exB, [2])] := by
  funext a
  by_cases h1 : a = exA
  · subst h1; decide
  · by_cases h2 : a = exB
    · subst h2; decide
    · rw [C01_final_never _ a, C01_final_never _ a] <;> simp [Ne.symm h1, Ne.symm h2]

/-- The keys diverge after 39 nibbles (C06). -/
example : Diverge (Spec.final [(exA, [1]), (exB, [2])]) (Spec.nibbles exA).dropLast :=
  ⟨exA, exB, 2, 3, by decide, by decide, by decide, by decide, by decide⟩

/-- An initialised overlay over a memory store with a shadowed and a deleted node, flushed (C11). -/
example : ∃ s', Steps (.overlay (.mem [([], 0), ([1], 5)]) (some [])) [.put [1] 6, .del [], .flush, .put [2] 7] s' := by
  refine ⟨_, .cons (.put rfl) (.cons (.del rfl) (.cons (.flush (List.Perm.refl _) rfl) (.cons (.put rfl) .nil)))⟩

example : (Store.overlay (.mem [([], 0), ([1], 5)]) (some [])).Usable := by
  simp [Store.Usable, NodupKeys]

/-- A history with overlays (C13): put, push, put through the overlay, flush. -/
example : ∃ w M, Reach H w M ∧ M exA = [1] ∧ M exB = [2] := by
  obtain ⟨b1, w1, e1, _, _⟩ := putEntry_spec (newWorld_inv (H := H)) exA [1]
  have r1 := Reach.put .fresh e1
  have r2 := Reach.push r1
  obtain ⟨b2, w2, e2, _, _⟩ := putEntry_spec r2.inv exB [2]
  exact ⟨w2, _, .put r2 e2, by simp only [Spec.set]; decide, by simp [Spec.set]⟩

theorem top_single {L : Nibbles → Bytes} {p0 : Nibbles} (hL : ∀ q, L q ≠ [] → q = p0) :
    ∀ (d : Nat) (p : Nibbles), Spec.top H L d p ≠ none → p <+: p0
  | 0, p, h => by
    simp only [Spec.top] at h
    by_cases hp : L p = []
    · simp [hp] at h
    · rw [hL p hp]; exact List.prefix_refl _
  | d + 1, p, h => by
    by_cases hk : ∀ i, Spec.top H L d (p ++ [i]) = none
    · simp [Spec.top, kids_none hk] at h
    · obtain ⟨i, hi⟩ := Classical.not_forall.mp hk
      exact (List.prefix_append _ _).trans (top_single hL d _ hi)

theorem strings_single {L : Nibbles → Bytes} {p0 : Nibbles} (hL : ∀ q, L q ≠ [] → q = p0) :
    ∀ (d : Nat) (p : Nibbles) (x : Bytes), x ∈ Spec.topStrings H L d p → x = Spec.leafEnc p0 (L p0)
  | 0, p, x, h => by
    simp only [Spec.topStrings] at h
    by_cases hp : L p = []
    · simp [hp] at h
    · simp only [hp, if_false, List.mem_singleton] at h
      rw [h, hL p hp]
  | d + 1, p, x, h => by
    have hb : x ∈ (List.finRange 16).flatMap (fun i => Spec.topStrings H L d (p ++ [i])) := by
      simp only [Spec.topStrings] at h
      by_cases hk : ∀ i, Spec.top H L d (p ++ [i]) = none
      · rw [kids_none hk] at h; exact h
      · obtain ⟨i, hi⟩ := Classical.not_forall.mp hk
        obtain ⟨r, hr⟩ := Option.ne_none_iff_exists'.mp hi
        rw [kids_single hr] at h
        · exact h
        · intro j hj
          cases ht : Spec.top H L d (p ++ [j]) with
          | none => rfl
          | some r' =>
            have h1 := top_single hL d _ hi
            have h2 := top_single (H := H) hL d (p ++ [j]) (by rw [ht]; simp)
            obtain ⟨t, ht⟩ := h1
            obtain ⟨t', ht'⟩ := h2
            rw [← ht] at ht'
            simp only [List.append_assoc, List.singleton_append, List.append_cancel_left_eq, List.cons.injEq] at ht'
            exact absurd ht'.1 hj
    obtain ⟨i, _, hi⟩ := List.mem_flatMap.mp hb
    exact strings_single hL d _ x hi

/-- A hash function (the first byte of its argument) without a collision between the strings of a tree with one entry (C05). -/
example : ∃ H : Bytes → Hash32, ∀ x ∈ Spec.rootStrings H (Spec.final [(exA, [1])]),
    ∀ y ∈ Spec.rootStrings H (Spec.final [(exB, [7]), (exA, [1]), (exB, [])]), H x = H y → x = y := by
  refine ⟨fun x => ⟨x.headD 0 :: List.replicate 31 0, by simp⟩, ?_⟩
  have e : Spec.final [(exB, [7]), (exA, [1]), (exB, [])] = Spec.final [(exA, [1])] := by
    funext a
    by_cases h1 : a = exA
    · subst h1; decide
    · by_cases h2 : a = exB
      · subst h2; decide
      · rw [C01_final_never _ a, C01_final_never _ a] <;> simp [Ne.symm h1, Ne.symm h2]
  rw [e]
  have hL : ∀ q, Spec.leafAt (Spec.final [(exA, [1])]) q ≠ [] → q = Spec.nibbles exA := by
    intro q hq
    unfold Spec.leafAt at hq
    split at hq
    next h =>
      have h2 := h.choose_spec
      by_cases h1 : h.choose = exA
      · rw [← h2, h1]
      · exact absurd (C01_final_never _ _ (by simp [Ne.symm h1])) hq
    · simp at hq
  intro x hx y hy hxy
  have h0 : x.headD 0 = y.headD 0 := by
    have := congrArg (fun b : Hash32 => b.val.headD 0) hxy
    simpa using this
  rcases List.mem_cons.mp hx with hx | hx <;> rcases List.mem_cons.mp hy with hy | hy
  · rw [hx, hy]
  · obtain ⟨i, _, hi⟩ := List.mem_flatMap.mp hy
    rw [hx, strings_single hL _ _ _ hi] at h0
    simp [Spec.branchEnc, Spec.leafEnc] at h0
  · obtain ⟨i, _, hi⟩ := List.mem_flatMap.mp hx
    rw [hy, strings_single hL _ _ _ hi] at h0
    simp [Spec.branchEnc, Spec.leafEnc] at h0
  · obtain ⟨i, _, hi⟩ := List.mem_flatMap.mp hx
    obtain ⟨j, _, hj⟩ := List.mem_flatMap.mp hy
    rw [strings_single hL _ _ _ hi, strings_single hL _ _ _ hj]

end Nimiq.Tree
