import Verif.Accounts.Prog
import Verif.Tree.Readers
/-!
# C128: `GetAccount` while a block is pushed

One goroutine calls `Push`, others call `GetAccount` on the same accounts; the methods of the store are synchronised, nothing
else is (as in C106, of which this is the consequence for accounts).
-/
namespace Nimiq.Accounts
open Beserial Beserial.Spec Wire Spec Tree.Generic

/-- accounts.go:87-99: the bytes `PutAccount` passes to `a.Tree.PutEntry` -/
def putBytes : Option Account → Bytes
  | none => []
  | some acc =>
    if acc.type = 0 ∧ isEmpty acc = true then []
    else
      match WrapAccount.enc (some acc) [] with
      | .ok buf => buf
      | .err _ => []
      | .panic => []

/-- The ledger of a node that writes down its calls of `a.Tree.PutEntry`. -/
def recording (H : Bytes → Hash32) : Ledger (Node × List (Addr × Bytes)) where
  getAccount a := fun s => ((Node.getAccount a s.1).1, ((Node.getAccount a s.1).2, s.2))
  putAccount a x := fun s => ((Node.putAccount H a x s.1).1, ((Node.putAccount H a x s.1).2, s.2 ++ [(a, putBytes x)]))
  blockReward h := fun s => ((Node.blockReward h s.1).1, ((Node.blockReward h s.1).2, s.2))

/-- The calls of `a.Tree.PutEntry` that `Push` makes, in their order. -/
def pushWrites (E : Env) (block : Block) (n : Node) : List (Addr × Bytes) := (push E (recording E.H) block (n, [])).2.2

/-- The states of the tree at the calls of the store while a block is pushed, each with the number of accounts written so far
(`GetEntry` does not change the tree, so these are the states during the calls of `PutEntry`). -/
def pushTimeline (E : Env) (block : Block) (n : Node) : List (Nat × Tree.World) := timeline E.H (pushWrites E block n) 0 n.tree

/-- accounts.go:69-85 `GetAccount`, where the call of the store falls into the state `s` and the node is read in the state `s'` -/
def getAccountAcross (addr : Addr) (s s' : Tree.World) : Out Account :=
  match getEntryAcross addr s s' with
  | none => .panic
  | some entry =>
    let buf := entry.getD []
    if buf.length ≤ 0 then .ok initialAccount
    else
      match WrapAccount.dec buf with
      | .ok (k, some acc) => if k ≠ buf.length then .panic else .ok acc
      | .ok (_, none) => .panic
      | .err _ => .panic
      | .panic => .panic

/-- When nothing happens in between this is `GetAccount`. -/
theorem C128_get_account (addr : Addr) (n : Node) : (Node.getAccount addr n).1 = getAccountAcross addr n.tree n.tree := by
  have h := C106_get_entry addr n.tree
  unfold Node.getAccount getAccountAcross
  rw [← h]
  cases he : Tree.getEntry addr n.tree with
  | none => rfl
  | some r =>
    obtain ⟨entry, t⟩ := r
    simp only [Option.map_some]
    split
    · rfl
    · cases hd : WrapAccount.dec (entry.getD []) with
      | ok x =>
        obtain ⟨k, _ | acc⟩ := x
        · rfl
        · simp only []; split <;> rfl
      | err e => rfl
      | panic => rfl

/-! ## The writes of a program -/

variable {E : Env} {H : Bytes → Hash32} {n : Node} {m : AMap}

theorem putBytes_eq (x : Option Account) : putBytes x = entryOf (x.getD initialAccount) := by
  cases x with
  | none => simp [putBytes, entryOf]
  | some acc =>
    unfold putBytes entryOf
    by_cases hx : acc = initialAccount
    · simp only [Option.getD_some]
      rw [if_pos ((initial_iff acc).mpr hx), if_pos hx]
    · have hc : ¬ (acc.type = 0 ∧ isEmpty acc = true) := fun hc => hx ((initial_iff acc).mp hc)
      have henc := (C40_round_trip acc [] []).1
      rw [List.nil_append] at henc
      simp only [Option.getD_some]
      rw [if_neg hc, if_neg hx, henc]

theorem putAccount_putEntry (a : Addr) (x : Option Account) : Node.putAccount H a x = Node.putEntry H a (putBytes x) := by
  cases x with
  | none => rfl
  | some acc =>
    by_cases hc : acc.type = 0 ∧ isEmpty acc = true
    · simp only [Node.putAccount, putBytes, hc, and_self, if_true]
    · have henc := (C40_round_trip acc [] []).1
      rw [List.nil_append] at henc
      simp only [Node.putAccount, putBytes, hc, if_false, henc]

/-- What a program does to a node, and what is written down. -/
theorem prog_writes {α : Type} (p : Prog α) : ∀ (n : Node) (m : AMap), Rel H n m → ∀ l, ∃ q,
    (p.run (recording H) (n, l)).2.2 = l ++ q ∧ (p.run (recording H) (n, l)).1 = (p.run (nodeLedger H) n).1 ∧
    (p.run (recording H) (n, l)).2.1 = (p.run (nodeLedger H) n).2 ∧
    Tree.runPuts H q n.tree = some (p.run (nodeLedger H) n).2.tree ∧
    ∀ k, Tree.runPuts H (q.take k) n.tree = some (p.run (dying (nodeLedger H)) (n, k)).2.1.tree := by
  induction p with
  | done o => intro n m _ l; exact ⟨[], by simp [Prog.run, M.lift], rfl, rfl, rfl, fun k => by simp [Prog.run, M.lift, Tree.runPuts]⟩
  | get a kk ih =>
    intro n m h l
    have hg : Node.getAccount a n = (.ok (m a), n) := h.getAccount a
    have e1 : ∀ l, (recording H).getAccount a (n, l) = (.ok (m a), (n, l)) := fun l => by
      show ((Node.getAccount a n).1, ((Node.getAccount a n).2, l)) = _; rw [hg]
    have e2 : (nodeLedger H).getAccount a n = (.ok (m a), n) := hg
    have e3 : ∀ k, (dying (nodeLedger H)).getAccount a (n, k) = (.ok (m a), (n, k)) := fun k => by
      show ((Node.getAccount a n).1, ((Node.getAccount a n).2, k)) = _; rw [hg]
    simp only [Prog.run, M.bind_eq, e1, e2, e3]
    exact ih (m a) n m h l
  | put a x kk ih =>
    intro n m h l
    obtain ⟨hp1, hp2⟩ := h.putAccount a x
    rcases hp : Node.putAccount H a x n with ⟨o, n1⟩
    rw [hp] at hp1 hp2
    simp only at hp1 hp2
    subst hp1
    have e1 : (recording H).putAccount a x (n, l) = (.ok (), (n1, l ++ [(a, putBytes x)])) := by
      show ((Node.putAccount H a x n).1, ((Node.putAccount H a x n).2, l ++ [(a, putBytes x)])) = _; rw [hp]
    have e2 : (nodeLedger H).putAccount a x n = (.ok (), n1) := hp
    have e3 : ∀ k, (dying (nodeLedger H)).putAccount a x (n, k + 1) = (.ok (), (n1, k)) := fun k => by
      show ((Node.putAccount H a x n).1, ((Node.putAccount H a x n).2, k)) = _; rw [hp]
    have ht : ∃ b, Tree.putEntry H a (putBytes x) n.tree = some (b, n1.tree) := by
      rw [putAccount_putEntry] at hp
      unfold Node.putEntry at hp
      cases he : Tree.putEntry H a (putBytes x) n.tree with
      | none => rw [he] at hp; cases hp
      | some r => rw [he] at hp; cases hp; exact ⟨r.1, rfl⟩
    obtain ⟨b, ht⟩ := ht
    obtain ⟨q, q1, q2, q3, q4, q5⟩ := ih n1 _ hp2 (l ++ [(a, putBytes x)])
    simp only [Prog.run, M.bind_eq, e1, e2]
    refine ⟨(a, putBytes x) :: q, by rw [q1]; simp, q2, q3, by rw [Tree.runPuts, ht]; exact q4, fun k => ?_⟩
    cases k with
    | zero => rfl
    | succ k => rw [e3]; rw [List.take_succ_cons, Tree.runPuts, ht]; exact q5 k
  | reward g kk ih =>
    intro n m h l
    have hr := (simLedger H).reward g n m h
    have ht : (Node.blockReward g n).2.tree = n.tree := by
      unfold Node.blockReward
      split <;> rfl
    rcases hb : Node.blockReward g n with ⟨o, n1⟩
    have hr2 : Rel H n1 m := by
      have e : (mapLedger.blockReward g m).2 = m := by unfold mapLedger; simp only []; split <;> rfl
      have := hr.2
      rw [e] at this
      have hn1 : ((nodeLedger H).blockReward g n).2 = n1 := by show (Node.blockReward g n).2 = n1; rw [hb]
      rwa [hn1] at this
    rw [hb] at ht
    have e1 : ∀ l, (recording H).blockReward g (n, l) = (o, (n1, l)) := fun l => by
      show ((Node.blockReward g n).1, ((Node.blockReward g n).2, l)) = _; rw [hb]
    have e2 : (nodeLedger H).blockReward g n = (o, n1) := hb
    have e3 : ∀ k, (dying (nodeLedger H)).blockReward g (n, k) = (o, (n1, k)) := fun k => by
      show ((Node.blockReward g n).1, ((Node.blockReward g n).2, k)) = _; rw [hb]
    simp only [Prog.run, M.bind_eq, e1, e2, e3]
    cases o with
    | ok r =>
      simp only []
      obtain ⟨q, q1, q2, q3, q4, q5⟩ := ih r n1 m hr2 l
      exact ⟨q, q1, q2, q3, by rw [← ht]; exact q4, fun k => by rw [← ht]; exact q5 k⟩
    | err e => exact ⟨[], by simp, rfl, rfl, congrArg some ht.symm, fun k => by
        rw [List.take_nil]; exact congrArg some ht.symm⟩
    | panic => exact ⟨[], by simp, rfl, rfl, congrArg some ht.symm, fun k => by
        rw [List.take_nil]; exact congrArg some ht.symm⟩

/-- The writes of a push. -/
theorem push_writes (hn : Reach E n) (block : Block) :
    Tree.runPuts E.H (pushWrites E block n) n.tree = some (Push E block n).2.tree ∧
    ∀ k, Tree.runPuts E.H ((pushWrites E block n).take k) n.tree = some (PushUntil E k block n).2.tree := by
  obtain ⟨p, hp'⟩ := HasProg.push E block
  have hp : ∀ σ (L : Ledger σ), push E L block = p.run L := hp'
  obtain ⟨q, q1, q2, q3, q4, q5⟩ := prog_writes (H := E.H) p n _ hn.acc []
  have e : pushWrites E block n = q := by
    show (push E (recording E.H) block (n, [])).2.2 = q
    rw [hp, q1]; rfl
  rw [e]
  refine ⟨?_, fun k => ?_⟩
  · show _ = some (push E (nodeLedger E.H) block n).2.tree
    rw [hp]; exact q4
  · show _ = some (push E (dying (nodeLedger E.H)) block (n, k)).2.1.tree
    rw [hp]; exact q5 k

theorem runPuts_append {ps qs : List (Addr × Bytes)} : ∀ {w w1 : Tree.World}, Tree.runPuts H ps w = some w1 →
    Tree.runPuts H (ps ++ qs) w = Tree.runPuts H qs w1 := by
  induction ps with
  | nil => intro w w1 h; simp only [Tree.runPuts, Option.some.injEq] at h; rw [h]; rfl
  | cons e ps ih =>
    intro w w1 h
    obtain ⟨a, v⟩ := e
    simp only [List.cons_append, Tree.runPuts] at h ⊢
    cases hp : Tree.putEntry H a v w with
    | none => rw [hp] at h; cases h
    | some r => rw [hp] at h; exact ih h

/-- Every reachable node has a tree that a sequence of puts leads to. -/
theorem Reach.puts (hn : Reach E n) : ∃ P, Tree.runPuts E.H P Tree.newWorld = some n.tree := by
  induction hn with
  | new => exact ⟨[], rfl⟩
  | @put n a x hn ih =>
    obtain ⟨P, hP⟩ := ih
    refine ⟨P ++ [(a, putBytes x)], ?_⟩
    rw [runPuts_append hP]
    have h1 := (hn.acc.putAccount a x).1
    rcases hp : Node.putAccount E.H a x n with ⟨o, n1⟩
    rw [hp] at h1
    simp only at h1
    subst h1
    rw [putAccount_putEntry] at hp
    unfold Node.putEntry at hp
    cases he : Tree.putEntry E.H a (putBytes x) n.tree with
    | none => rw [he] at hp; cases hp
    | some r => rw [he] at hp; cases hp; simp only [Tree.runPuts, he]
  | @push n block hn ih =>
    obtain ⟨P, hP⟩ := ih
    exact ⟨P ++ pushWrites E block n, by rw [runPuts_append hP]; exact (push_writes hn block).1⟩
  | policy _ _ ih => exact ih

theorem Reach.good (hn : Reach E n) : ∃ P, Tree.runPuts E.H P Tree.newWorld = some n.tree ∧
    Good E.H (Tree.Spec.final P) n.tree := by
  obtain ⟨P, hP⟩ := hn.puts
  obtain ⟨w, h1, h2⟩ := reach (H := E.H) P
  rw [hP] at h1
  cases h1
  exact ⟨P, hP, h2⟩

theorem inv_unique {w : Tree.World} {M M' : Tree.Spec.Mapping} (h : Tree.TreeInv H w M) (h' : Tree.TreeInv H w M') : M = M' := by
  funext a
  have e := (Tree.getEntry_spec h a).symm.trans (Tree.getEntry_spec h' a)
  by_cases h1 : M a = [] <;> by_cases h2 : M' a = [] <;> simp_all

/-- What the first `k` writes of a push define. -/
theorem push_final (hn : Reach E n) (block : Block) {P : List (Addr × Bytes)}
    (hP : Tree.runPuts E.H P Tree.newWorld = some n.tree) (k : Nat) :
    Tree.Spec.final (P ++ (pushWrites E block n).take k) = fun b => entryOf (accountOf (PushUntil E k block n).2 b) := by
  obtain ⟨w, h1, h2⟩ := reach (H := E.H) (P ++ (pushWrites E block n).take k)
  rw [runPuts_append hP, (push_writes hn block).2 k] at h1
  cases h1
  exact inv_unique h2.inv (crash_reach hn k block).acc.tree

theorem decode_entryOf {b : Addr} {s s' : Tree.World} {r : Option Bytes} {x : Account} (h : getEntryAcross b s s' = some r)
    (hx : r.getD [] = entryOf x) : getAccountAcross b s s' = .ok x := by
  unfold getAccountAcross
  rw [h]
  simp only [hx]
  by_cases hi : x = initialAccount
  · subst hi; simp [entryOf]
  · have he : entryOf x = accountLayout x := by simp [entryOf, hi]
    have hne := accountLayout_ne_nil x
    have hlen : ¬ (accountLayout x).length ≤ 0 := by
      have := List.length_pos_iff.mpr hne; omega
    have hdec := (C40_round_trip x [] []).2
    rw [List.append_nil] at hdec
    simp only [he, hlen, hdec, ne_eq, not_true_eq_false, if_false]

theorem timeline_shift (j : Nat) : ∀ (puts : List (Addr × Bytes)) (i : Nat) (w : Tree.World),
    timeline H puts (i + j) w = (timeline H puts i w).map fun e => (e.1 + j, e.2) := by
  intro puts
  induction puts with
  | nil => intro i w; rfl
  | cons e puts ih =>
    intro i w
    obtain ⟨a, v⟩ := e
    unfold timeline
    cases Tree.putEntry H a v w with
    | none => rfl
    | some r =>
      simp only [List.map_append, List.map_map]
      rw [show i + j + 1 = (i + 1) + j by omega, ih]
      rfl

/-- The states between the writes are in the timeline. -/
theorem timeline_between : ∀ (puts : List (Addr × Bytes)) (M : Tree.Spec.Mapping) (w : Tree.World), Good H M w → ∀ (i k : Nat),
    k ≤ puts.length → ∀ w', Tree.runPuts H (puts.take k) w = some w' → (i + k, w') ∈ timeline H puts i w := by
  intro puts
  induction puts with
  | nil =>
    intro M w G i k hk w' h
    have : k = 0 := by simpa using hk
    subst this
    cases h
    exact List.mem_singleton.mpr rfl
  | cons e puts ih =>
    intro M w G i k hk w' h
    obtain ⟨a, v⟩ := e
    obtain ⟨m, hm⟩ := G.mem
    obtain ⟨r, w1, g', k1, k2, -, G1⟩ := G.put a v
    unfold timeline
    simp only [k2]
    cases k with
    | zero =>
      cases h
      refine List.mem_append_left _ (List.mem_map.mpr ⟨w, ?_, rfl⟩)
      rw [interruptions, k1]
      exact (log_head hm k1).subset (by simp)
    | succ k =>
      refine List.mem_append_right _ ?_
      rw [List.take_succ_cons, Tree.runPuts, k2] at h
      have := ih _ w1 G1 (i + 1) k (by simpa using hk) w' h
      rwa [show i + 1 + k = i + (k + 1) by omega] at this

/-! ## C128 -/

/-- C128. `GetAccount` is linearizable with a concurrent `Push`, account by account. Whatever block is pushed, with any outcome,
and wherever the calls of the readers fall: there is one counter `done` of the accounts written, which never decreases; and
every `GetAccount`, whose call of the store happens at the moment `t` and whose read of the node happens at any later moment
`t'`, returns (without an error or a panic) the account as it is after the first `done t` account writes of the push. The
moments are those of the real call: the last one is the state `Push` leaves. -/
theorem C128_linearizable_partial (hn : Reach E n) (block : Block) :
    let T := pushTimeline E block n
    T.getLast? = some ((pushWrites E block n).length, (Push E block n).2.tree) ∧
    ∃ done : Nat → Nat,
      (∀ t t' (_ : t ≤ t') (h' : t' < T.length), done t ≤ done t' ∧ T[t].1 ≤ T[t'].1) ∧
      (∀ t (h : t < T.length), T[t].1 ≤ done t ∧ done t ≤ T[t].1 + 1 ∧ done t ≤ (pushWrites E block n).length) ∧
      (∀ t t' (_ : t ≤ t') (h' : t' < T.length) (b : Addr),
        getAccountAcross b T[t].2 T[t'].2 = .ok (accountOf (PushUntil E (done t) block n).2 b)) := by
  intro T
  obtain ⟨P, hP, G⟩ := hn.good
  obtain ⟨h1, h2, w, h3, h4⟩ := timeline_spec (H := E.H) (pushWrites E block n) P n.tree G
  have hsh := timeline_shift (H := E.H) P.length (pushWrites E block n) 0 n.tree
  rw [Nat.zero_add] at hsh
  rw [hsh] at h1 h2 h4
  rw [(push_writes hn block).1] at h3
  cases h3
  have hT : timeline E.H (pushWrites E block n) 0 n.tree = T := rfl
  rw [hT] at h1 h2 h4
  generalize hall : P ++ pushWrites E block n = all at h1 h2 h4
  have hlen : all.length = (pushWrites E block n).length + P.length := by rw [← hall, List.length_append]; omega
  let d : Nat × Tree.World → Nat := fun e => doneAt all (e.1 + P.length, e.2) - P.length
  have hb : ∀ e : Nat × Tree.World, doneAt all (e.1 + P.length, e.2) = d e + P.length ∧ e.1 ≤ d e ∧ d e ≤ e.1 + 1 := by
    intro e
    have := doneAt_bounds all (e.1 + P.length, e.2)
    simp only at this
    simp only [d]
    omega
  refine ⟨?_, fun t => if h : t < T.length then d T[t] else 0, ?_, ?_, ?_⟩
  · rw [List.getLast?_map] at h4
    cases hl : T.getLast? with
    | none => rw [hl] at h4; cases h4
    | some e =>
      rw [hl] at h4
      simp only [Option.map_some, Option.some.injEq, Prod.mk.injEq] at h4
      obtain ⟨h5, h6⟩ := h4
      rw [← h6, show (pushWrites E block n).length = e.1 by omega]
  · intro t t' htt h'
    have ht : t < T.length := by omega
    simp only [dif_pos ht, dif_pos h']
    rcases Nat.lt_or_eq_of_le htt with hlt | rfl
    · have := List.pairwise_iff_getElem.mp (List.pairwise_map.mp h1) t t' ht h' hlt
      have b1 := hb T[t]
      have b2 := hb T[t']
      simp only [b1.1, b2.1] at this
      omega
    · exact ⟨Nat.le_refl _, Nat.le_refl _⟩
  · intro t h
    simp only [dif_pos h]
    have b := hb T[t]
    have := (h2 _ (List.mem_map.mpr ⟨_, List.getElem_mem h, rfl⟩)).2.1
    simp only [b.1] at this
    exact ⟨b.2.1, b.2.2, by omega⟩
  · intro t t' htt h' b
    have ht : t < T.length := by omega
    simp only [dif_pos ht]
    have hs := (h2 _ (List.mem_map.mpr ⟨_, List.getElem_mem ht, rfl⟩)).2.2.2
    simp only [(hb T[t]).1] at hs
    have hk : Keeps T[t].2 T[t'].2 := by
      rcases Nat.lt_or_eq_of_le htt with hlt | rfl
      · exact (List.pairwise_iff_getElem.mp (List.pairwise_map.mp h1) t t' ht h' hlt).2.2
      · exact .refl _
    obtain ⟨r, hr1, hr2⟩ := hs.across hk b
    refine decode_entryOf hr1 ?_
    have htake : all.take (d T[t] + P.length) = P ++ (pushWrites E block n).take (d T[t]) := by
      rw [← hall, List.take_append, List.take_of_length_le (by omega), Nat.add_sub_cancel]
    rw [hr2, htake, push_final hn block hP]

/-- C128, accounts that the block does not involve read the same at all times. -/
theorem C128_uninvolved_partial (hn : Reach E n) (block : Block) (b : Addr)
    (h : ∀ body, block.body = some body → b ≠ body.minerAddr ∧
      ∀ tx ∈ body.txs, (tx.getSender E.H).1 ≠ b ∧ tx.getRecipient.1 ≠ b) :
    let T := pushTimeline E block n
    ∀ t t' (_ : t ≤ t') (h' : t' < T.length), getAccountAcross b T[t].2 T[t'].2 = .ok (accountOf n b) := by
  intro T t t' htt h'
  obtain ⟨-, done, -, -, h3⟩ := C128_linearizable_partial hn block
  rw [h3 t t' htt h' b]
  have h4 := (C118_intact_partial hn (done t) block).2 b h
  rw [(crash_reach hn (done t) block).acc.getAccount b, hn.acc.getAccount b] at h4
  injection h4 with h4
  rw [h4]

/-- C128 is false of several accounts together. Take any transfer of `d` coins (value and fee) from `a` to `b` in a block mined by
`c`: the push succeeds, and there is a moment at which readers of all accounts find `d` coins missing. -/
theorem C128_sum_violated (hn : Reach E n) {a b c : Addr} {tx : Tx} {v d : UInt64} {height : UInt32} (hash : Hash32)
    (hab : a ≠ b) (hac : a ≠ c) (hbc : b ≠ c) (h0 : height ≠ 0) (hs : tx.getSender E.H = (a, 0))
    (hr : tx.getRecipient = (b, 0)) (hcr : creates tx = false) (hd : tx.amount.1 + tx.amount.2 = d) (hd0 : d ≠ 0)
    (hv : 2 * d.toNat ≤ v.toNat) (ha : accountOf n a = .basic ⟨v⟩) (hb : (accountOf n b).type = 0)
    (hc : (accountOf n c).type = 0) :
    let block : Block := ⟨height, hash, some ⟨c, [tx], []⟩⟩
    (Push E block n).1 = .ok () ∧ ∃ e ∈ pushTimeline E block n, ∃ m : AMap, (∀ x, getAccountAcross x e.2 e.2 = .ok (m x)) ∧
      total m + d.toNat = total (accountOf n) := by
  intro block
  obtain ⟨h1, h2, h3, -⟩ := C118_twice_violated hn hash hab hac hbc h0 hs hr hcr hd hd0 hv ha hb hc
  refine ⟨h3, ?_⟩
  obtain ⟨P, hP, G⟩ := hn.good
  have hlen : 1 ≤ (pushWrites E block n).length := by
    rcases Nat.eq_zero_or_pos (pushWrites E block n).length with h | h
    · exfalso
      have hnil := List.eq_nil_of_length_eq_zero h
      have e1 := (push_writes hn block).2 1
      rw [hnil] at e1
      have e2 : n.tree = (PushUntil E 1 block n).2.tree := by simpa [Tree.runPuts] using e1
      apply h2
      funext x
      have g1 := C128_get_account x n
      have g2 := C128_get_account x (PushUntil E 1 block n).2
      rw [← e2, ← g1, hn.acc.getAccount x, (crash_reach hn 1 block).acc.getAccount x] at g2
      injection g2 with g2
    · exact h
  have hmem := timeline_between (H := E.H) (pushWrites E block n) _ n.tree G 0 1 hlen _ ((push_writes hn block).2 1)
  refine ⟨_, hmem, accountOf (PushUntil E 1 block n).2, fun x => ?_, h1⟩
  have := C128_get_account x (PushUntil E 1 block n).2
  rw [(crash_reach hn 1 block).acc.getAccount x] at this
  exact this.symm

/-- The hypotheses can be met: 3 coins and a fee of 1 go from an account with 9 coins to an empty one, and at some moment of the
push the readers find 5 of the 9 coins. -/
example (E : Env) (a b c : Addr) (hab : a ≠ b) (hac : a ≠ c) (hbc : b ≠ c) : ∃ (n : Node) (block : Block), Reach E n ∧
    (Push E block n).1 = .ok () ∧ ∃ e ∈ pushTimeline E block n, ∃ m : AMap, (∀ x, getAccountAcross x e.2 e.2 = .ok (m x)) ∧
      total m + 4 = total (accountOf n) := by
  have hn : Reach E (Node.putAccount E.H a (some (.basic ⟨9⟩)) newNode).2 := .put _ _ .new
  have hb : ∀ x, x ≠ a → (accountOf (Node.putAccount E.H a (some (.basic ⟨9⟩)) newNode).2 x).type = 0 := fun x hx => by
    rw [accountOf_put .new, AMap.set_ne _ _ hx, accountOf_new]; rfl
  have := C128_sum_violated hn (a := a) (b := b) (c := c) (tx := .extended ⟨[], a, 0, b, 0, 3, 1, 1, 1, 0, []⟩) (v := 9) (d := 4)
    (height := 1) (BArr.zero 32) hab hac hbc (by decide) rfl rfl (creates_flags0 rfl) (show (3 : UInt64) + 1 = 4 by decide)
    (by decide) (by decide) (by rw [accountOf_put .new, AMap.set_same]) (hb b (Ne.symm hab)) (hb c (Ne.symm hac))
  exact ⟨_, _, hn, this⟩

end Nimiq.Accounts
