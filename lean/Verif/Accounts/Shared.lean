import Verif.Accounts.Single
/-!
# C105: who owns the account that GetAccount returns

`GetAccount` and `PutAccount` deal in pointers to account objects. `GetAccount` returns a fresh object for every entry
of the tree, but a pointer to the exported variable `wire.InitialAccount` for every address without one.
-/
namespace Nimiq.Accounts
open Beserial Wire Spec

/-- An `Accounts` value and the account objects of the process. Pointers to them are positions in the list; position 0 is
the variable `wire.InitialAccount` (wire/account.go:72). -/
structure Mem where
  node : Node
  objs : List Account

/-- A fresh process. -/
def newMem : Mem := ⟨newNode, [initialAccount]⟩

/-- What a pointer points to. -/
def Mem.deref (r : Nat) : M Mem Account := fun w =>
  match w.objs[r]? with
  | some acc => (.ok acc, w)
  | none => (.panic, w)

/-- accounts.go:69-85 `GetAccount`: the pointer it returns. `acc.UnmarshalBESerial` makes a new object
(wire/account.go:42-64). -/
def Mem.getAccount (addr : Addr) : M Mem Nat := fun w =>
  match Tree.getEntry addr w.node.tree with
  | none => (.panic, w)
  | some (entry, tree) =>
    let w := { w with node := { w.node with tree := tree } }
    let buf := entry.getD []
    if buf.length ≤ 0 then (.ok 0, w)
    else
      match WrapAccount.dec buf with
      | .ok (k, some acc) =>
        if k ≠ buf.length then (.panic, w) else (.ok w.objs.length, { w with objs := w.objs ++ [acc] })
      | .ok (_, none) => (.panic, w)
      | .err _ => (.panic, w)
      | .panic => (.panic, w)

/-- A call that concerns the node only. -/
def Mem.onNode {α : Type} (x : M Node α) : M Mem α := fun w =>
  let p := x w.node
  (p.1, { w with node := p.2 })

/-- accounts.go:87-99 `PutAccount`: the object is read and marshalled, the pointer is not kept. -/
def Mem.putAccount (H : Bytes → Hash32) (addr : Addr) : Option Nat → M Mem Unit
  | none => Mem.onNode (Node.putAccount H addr none)
  | some r => do
    let acc ← Mem.deref r
    Mem.onNode (Node.putAccount H addr (some acc))

/-- The code of accounts.go over these. It reads the accounts that `GetAccount` returns through the pointers. What it puts
are new objects, made by `ApplyOutgoingTx`, `ApplyIncomingTx` (wire/account.go:128-142, 226-247, 323-401) and the contract
constructors, to which nobody else has a pointer; so they are passed by value here. -/
def memLedger (H : Bytes → Hash32) : Ledger Mem where
  getAccount a := do
    let r ← Mem.getAccount a
    Mem.deref r
  putAccount a acc := Mem.onNode (Node.putAccount H a acc)
  blockReward h := Mem.onNode (Node.blockReward h)

/-- accounts.go:39-60 `Push` -/
def Mem.push (E : Env) (block : Block) : M Mem Unit := Accounts.push E (memLedger E.H) block

/-- The user assigns to fields of an object, as in `acc.(*wire.BasicAccount).Value = 7`. The type of an object never
changes. -/
def Mem.assign (r : Nat) (acc : Account) (w : Mem) : Mem :=
  { w with objs := w.objs.modify r fun old => if acc.type = old.type then acc else old }

/-- The user makes an account object. -/
def Mem.make (acc : Account) (w : Mem) : Mem := { w with objs := w.objs ++ [acc] }

/-- What a program can do that assigns only to objects of a given set. -/
inductive Uses (E : Env) (mine : Nat → Prop) : Mem → Prop
  | new : Uses E mine newMem
  | get {w : Mem} (a : Addr) : Uses E mine w → Uses E mine (Mem.getAccount a w).2
  | put {w : Mem} (a : Addr) (r : Option Nat) : Uses E mine w → Uses E mine (Mem.putAccount E.H a r w).2
  | push {w : Mem} (block : Block) : Uses E mine w → Uses E mine (Mem.push E block w).2
  | make {w : Mem} (acc : Account) : Uses E mine w → Uses E mine (w.make acc)
  | assign {w : Mem} (r : Nat) (acc : Account) : mine r → Uses E mine w → Uses E mine (w.assign r acc)

/-! ## As long as `InitialAccount` is not touched -/

theorem M.bind_run {σ α β : Type} (x : M σ α) (f : α → M σ β) (s : σ) :
    (x >>= f) s = match x s with
      | (.ok a, s) => f a s
      | (.err e, s) => (.err e, s)
      | (.panic, s) => (.panic, s) := rfl

theorem Mem.getAccount_fresh {H : Bytes → Hash32} {m : AMap} {w : Mem} (h : Rel H w.node m) (a : Addr) :
    Mem.getAccount a w = if m a = initialAccount then (.ok 0, w) else
      (.ok w.objs.length, { w with objs := w.objs ++ [m a] }) := by
  unfold Mem.getAccount
  rw [Tree.getEntry_spec h.tree a]
  by_cases hm : m a = initialAccount
  · simp [entryOf, hm]
  · have he : entryOf (m a) = accountLayout (m a) := by simp [entryOf, hm]
    have hne := accountLayout_ne_nil (m a)
    have hlen : ¬ (accountLayout (m a)).length ≤ 0 := by
      have := List.length_pos_iff.mpr hne; omega
    have hdec := (C40_round_trip (m a) [] []).2
    rw [List.append_nil] at hdec
    simp only [he, hne, if_false, Option.getD_some, hlen, hdec, ne_eq, not_true_eq_false, hm]

/-- What `GetAccount` returns, read at once, whatever is at position 0. -/
theorem Mem.get_deref {H : Bytes → Hash32} {m : AMap} {w : Mem} (h : Rel H w.node m) {x : Account}
    (h0 : w.objs[0]? = some x) (a : Addr) :
    ∃ w', (memLedger H).getAccount a w = (.ok (if m a = initialAccount then x else m a), w') ∧
      w'.node = w.node ∧ w'.objs[0]? = some x := by
  show ∃ w', (Mem.getAccount a >>= fun r => Mem.deref r) w = _ ∧ _
  rw [M.bind_run, Mem.getAccount_fresh h]
  by_cases hm : m a = initialAccount
  · refine ⟨w, ?_, rfl, h0⟩
    rw [if_pos hm, if_pos hm]
    simp only [Mem.deref, h0]
  · refine ⟨{ w with objs := w.objs ++ [m a] }, ?_, rfl, ?_⟩
    · rw [if_neg hm, if_neg hm]
      simp [Mem.deref]
    · rw [List.getElem?_append_left (List.getElem?_eq_some_iff.mp h0).1]; exact h0

/-- The map of accounts with something else in place of the empty account. -/
def seenAs (x : Account) : Ledger AMap where
  getAccount a := fun m => (.ok (if m a = initialAccount then x else m a), m)
  putAccount := mapLedger.putAccount
  blockReward := mapLedger.blockReward

/-- `accounts.go` over objects does what it does on a map in which missing accounts read as `*InitialAccount`. -/
theorem sim_mem (H : Bytes → Hash32) (x : Account) :
    SimLedger (fun (w : Mem) m => Rel H w.node m ∧ w.objs[0]? = some x) (memLedger H) (seenAs x) where
  get a := by
    rintro w m ⟨h, h0⟩
    obtain ⟨w', e, e1, e2⟩ := Mem.get_deref h h0 a
    rw [e]
    exact ⟨rfl, by rw [e1]; exact h, e2⟩
  put a acc := by
    rintro w m ⟨h, h0⟩
    have := (simLedger H).put a acc w.node m h
    exact ⟨this.1, this.2, h0⟩
  reward k := by
    rintro w m ⟨h, h0⟩
    have := (simLedger H).reward k w.node m h
    exact ⟨this.1, this.2, h0⟩

theorem seenAs_initial : seenAs initialAccount = mapLedger := by
  have : (seenAs initialAccount).getAccount = mapLedger.getAccount := by
    funext a m
    show (Out.ok (if m a = initialAccount then initialAccount else m a), m) = (.ok (m a), m)
    by_cases h : m a = initialAccount
    · rw [if_pos h, h]
    · rw [if_neg h]
  show Ledger.mk _ mapLedger.putAccount mapLedger.blockReward = Ledger.mk mapLedger.getAccount _ _
  exact congrArg (fun g => Ledger.mk g mapLedger.putAccount mapLedger.blockReward) this

theorem Mem.push_rel {E : Env} {w : Mem} {m : AMap} {x : Account} (h : Rel E.H w.node m) (h0 : w.objs[0]? = some x)
    (block : Block) :
    (Mem.push E block w).1 = (Accounts.push E (seenAs x) block m).1 ∧
    Rel E.H (Mem.push E block w).2.node (Accounts.push E (seenAs x) block m).2 ∧
    (Mem.push E block w).2.objs[0]? = some x :=
  sim_push E (sim_mem E.H x) block w m ⟨h, h0⟩

/-- Whatever is done, except assigning to `InitialAccount`, leaves `InitialAccount` alone and the node in a good state. -/
theorem Uses.clean {E : Env} {w : Mem} (h : Uses E (· ≠ 0) w) :
    (∃ m, Rel E.H w.node m) ∧ w.objs[0]? = some initialAccount := by
  induction h with
  | new => exact ⟨⟨_, rel_new E.H⟩, rfl⟩
  | @get w a _ ih =>
    obtain ⟨⟨m, hm⟩, h0⟩ := ih
    rw [Mem.getAccount_fresh hm]
    by_cases hi : m a = initialAccount
    · rw [if_pos hi]; exact ⟨⟨m, hm⟩, h0⟩
    · rw [if_neg hi]
      refine ⟨⟨m, hm⟩, ?_⟩
      show (w.objs ++ [m a])[0]? = _
      rw [List.getElem?_append_left (List.getElem?_eq_some_iff.mp h0).1]; exact h0
  | @put w a r _ ih =>
    obtain ⟨⟨m, hm⟩, h0⟩ := ih
    cases r with
    | none => exact ⟨⟨_, (hm.putAccount a none).2⟩, h0⟩
    | some r =>
      have e : Mem.putAccount E.H a (some r) w = (Mem.deref r >>= fun acc =>
        Mem.onNode (Node.putAccount E.H a (some acc))) w := rfl
      rw [e, M.bind_run]
      unfold Mem.deref
      cases hr : w.objs[r]? with
      | none => exact ⟨⟨m, hm⟩, h0⟩
      | some acc => exact ⟨⟨_, (hm.putAccount a (some acc)).2⟩, h0⟩
  | push block _ ih =>
    obtain ⟨⟨m, hm⟩, h0⟩ := ih
    obtain ⟨_, h2, h3⟩ := Mem.push_rel hm h0 block
    exact ⟨⟨_, h2⟩, h3⟩
  | @make w acc _ ih =>
    obtain ⟨hm, h0⟩ := ih
    refine ⟨hm, ?_⟩
    show (w.objs ++ [acc])[0]? = _
    rw [List.getElem?_append_left (List.getElem?_eq_some_iff.mp h0).1]; exact h0
  | @assign w r acc hr _ ih =>
    obtain ⟨hm, h0⟩ := ih
    refine ⟨hm, ?_⟩
    show (w.objs.modify r _)[0]? = _
    rw [List.getElem?_modify, h0]
    simp [hr]

/-- C105, the part that holds. In every history in which the user assigns only to other objects than the one that
`GetAccount` returns for addresses without an entry: `GetAccount` returns, for an address with an entry, an object that did
not exist before, with the account of that address as the tree has it; assigning to any object but that one thing (also to
one that was passed to `PutAccount` before) changes no answer of `GetAccount`, the hash, or the outcome or effect of any
`Push`; and all of these are what they are when accounts are plain values (`accountOf`, `Push`). -/
theorem C105_own_objects_partial {E : Env} {w : Mem} (h : Uses E (· ≠ 0) w) (r : Nat) (hr : r ≠ 0) (acc : Account) :
    (∀ a, ∃ p w', Mem.getAccount a (w.assign r acc) = (.ok p, w') ∧ w'.node = w.node ∧
      w'.objs[p]? = some (accountOf w.node a) ∧
      (accountOf w.node a ≠ .basic ⟨0⟩ → (w.assign r acc).objs[p]? = none)) ∧
    Node.hash E.H (w.assign r acc).node = Node.hash E.H w.node ∧
    (∀ block, (Mem.push E block (w.assign r acc)).1 = (Push E block w.node).1 ∧
      (∀ a, accountOf (Mem.push E block (w.assign r acc)).2.node a = accountOf (Push E block w.node).2 a) ∧
      (Node.hash E.H (Mem.push E block (w.assign r acc)).2.node).1 = (Node.hash E.H (Push E block w.node).2).1) := by
  obtain ⟨⟨m, hm⟩, h0⟩ := (Uses.assign r acc hr h).clean
  have hm' : Rel E.H w.node m := hm
  have hacc := hm'.accountOf
  refine ⟨fun a => ?_, rfl, fun block => ?_⟩
  · rw [Mem.getAccount_fresh hm, hacc]
    by_cases hi : m a = initialAccount
    · rw [if_pos hi]
      exact ⟨0, _, rfl, rfl, by rw [h0, hi], fun hc => absurd hi hc⟩
    · rw [if_neg hi]
      refine ⟨_, _, rfl, rfl, ?_, fun _ => ?_⟩
      · simp
      · simp
  · obtain ⟨e1, e2, _⟩ := Mem.push_rel hm h0 block
    obtain ⟨f1, f2⟩ := hm'.push block
    rw [seenAs_initial] at e1 e2
    refine ⟨e1.trans f1.symm, fun a => by rw [e2.accountOf, f2.accountOf], ?_⟩
    rw [e2.hash, f2.hash]

/-- Histories with assignments to objects obtained from `GetAccount` exist: put an account, get it, change it. -/
example (E : Env) (a : Addr) : ∃ w : Mem, Uses E (· ≠ 0) w ∧ w.objs = [.basic ⟨0⟩, .basic ⟨5⟩, .basic ⟨9⟩] ∧
    accountOf w.node a = .basic ⟨5⟩ := by
  have u1 : Uses E (· ≠ 0) (newMem.make (.basic ⟨5⟩)) := .make _ .new
  have u2 := u1.put a (some 1)
  have hm : Rel E.H (Mem.putAccount E.H a (some 1) (newMem.make (.basic ⟨5⟩))).2.node
      (AMap.set (fun _ => initialAccount) a (.basic ⟨5⟩)) := ((rel_new E.H).putAccount a (some (.basic ⟨5⟩))).2
  have u3 := (u2.get a).assign 2 (.basic ⟨9⟩) (by decide)
  refine ⟨_, u3, ?_, ?_⟩
  · rw [Mem.getAccount_fresh hm, AMap.set_same, if_neg (by simp [initialAccount])]
    rfl
  · rw [Mem.getAccount_fresh hm, AMap.set_same, if_neg (by simp [initialAccount])]
    show accountOf (Mem.putAccount E.H a (some 1) (newMem.make (.basic ⟨5⟩))).2.node a = _
    rw [hm.accountOf, AMap.set_same]

/-! ## The object that all missing accounts share -/

theorem pushTx_seen {x y z : Account} {m : AMap} {a : Addr} {ty : UInt8} {tx : Tx} {h : UInt32} {op : AccountOp}
    (hy : (if m a = initialAccount then x else m a) = y) (hty : ty = 0xFF ∨ ty = y.type) (hz : op y tx h = .ok z) :
    pushTx (seenAs x) a ty tx h op m = (.ok (), m.set a z) := by
  have e : (seenAs x).getAccount a m = (.ok y, m) := by rw [← hy]; rfl
  unfold pushTx
  rw [M.bind_run, e]
  have hc : ¬ (ty ≠ 0xFF ∧ ty ≠ y.type) := by
    rintro ⟨h1, h2⟩
    rcases hty with h | h
    · exact h1 h
    · exact h2 h
  simp only [hc, if_false]
  rw [M.bind_run]
  unfold M.lift
  rw [hz]
  rfl

theorem forTxs_one {σ : Type} {t : Tx} {f : Tx → M σ Unit} {s s' : σ} (h : f t s = (.ok (), s')) :
    forTxs [t] f s = (.ok (), s') := by
  show (f t >>= fun _ => forTxs [] f) s = _
  rw [M.bind_run, h]
  rfl

/-- C105 is false: in every history so far (without such an assignment), `GetAccount` of any address `d` without an account
returns a pointer through which the user can give every missing account of the process any balance `x`: afterwards
`GetAccount` of every address without an entry returns an account with balance `x`, and a block in which the nonexistent
account of `a` sends a part of this money to the nonexistent account of `b` is accepted. What `Push` stores has nothing to
do any more with what was there: `b` has `x + v`, `a` has `x - v`, and the miner has `x` on top of the reward. -/
theorem C105_shared_violated {E : Env} {w : Mem} (h : Uses E (· ≠ 0) w) (d : Addr)
    (hd : accountOf w.node d = .basic ⟨0⟩) (x : UInt64) :
    ∃ p w', Mem.getAccount d w = (.ok p, w') ∧
      (∀ e, accountOf w.node e = .basic ⟨0⟩ →
        ∃ q w'', Mem.getAccount e (w'.assign p (.basic ⟨x⟩)) = (.ok q, w'') ∧ w''.objs[q]? = some (.basic ⟨x⟩)) ∧
      (∀ (a b c : Addr) (v : UInt64) (height : UInt32) (hash : Hash32) (proof : Bytes), height ≠ 0 → v < x →
        a ≠ b → a ≠ c → b ≠ c → accountOf w.node a = .basic ⟨0⟩ → accountOf w.node b = .basic ⟨0⟩ →
        accountOf w.node c = .basic ⟨0⟩ →
        let block : Block := ⟨height, hash, some ⟨c, [.extended ⟨[], a, 0, b, 0, v, 0, 1, 1, 0, proof⟩], []⟩⟩
        let after := Mem.push E block (w'.assign p (.basic ⟨x⟩))
        after.1 = .ok () ∧
        accountOf after.2.node a = .basic ⟨x - v⟩ ∧ accountOf after.2.node b = .basic ⟨x + v⟩ ∧
        accountOf after.2.node c = .basic ⟨x + rewardAt height⟩) := by
  obtain ⟨⟨m, hm⟩, h0⟩ := h.clean
  have hacc := hm.accountOf
  rw [hacc] at hd
  have hd : m d = initialAccount := hd
  refine ⟨0, w, by rw [Mem.getAccount_fresh hm, if_pos hd], ?_, ?_⟩
  all_goals
    have hm' : Rel E.H (w.assign 0 (.basic ⟨x⟩)).node m := hm
    have h0' : (w.assign 0 (.basic ⟨x⟩)).objs[0]? = some (.basic ⟨x⟩) := by
      show (w.objs.modify 0 _)[0]? = _
      rw [List.getElem?_modify, h0]
      rfl
    rw [hacc]
  · intro e he
    have he : m e = initialAccount := he
    exact ⟨0, _, by rw [Mem.getAccount_fresh hm', if_pos he], h0'⟩
  · intro a b c v height hash proof hh hv hab hac hbc ha hb hc block after
    obtain ⟨e1, e2, _⟩ := Mem.push_rel hm' h0' block
    have key : Accounts.push E (seenAs (.basic ⟨x⟩)) block m = (.ok (),
        ((AMap.set m a (.basic ⟨x - v⟩)).set b (.basic ⟨x + v⟩)).set c (.basic ⟨x + rewardAt height⟩)) := by
      have hx0 : ∀ {y : UInt64}, y ≠ 0 → Account.basic ⟨y⟩ ≠ initialAccount := by
        intro y hy h
        unfold initialAccount at h
        injection h with h
        injection h with h
        exact hy h
      have hxv : x - v ≠ 0 := by
        intro h
        have := congrArg UInt64.toNat h
        rw [UInt64.lt_iff_toNat_lt] at hv
        rw [UInt64.toNat_sub_of_le _ _ (by rw [UInt64.le_iff_toNat_le]; omega)] at this
        simp at this; omega
      have ha : m a = initialAccount := ha
      have hb : m b = initialAccount := hb
      have hc : m c = initialAccount := hc
      have s1 : pushSenders E (seenAs (.basic ⟨x⟩)) height ⟨c, [.extended ⟨[], a, 0, b, 0, v, 0, 1, 1, 0, proof⟩], []⟩ m =
          (.ok (), AMap.set m a (.basic ⟨x - v⟩)) := by
        refine forTxs_one ?_
        exact pushTx_seen (y := .basic ⟨x⟩) (z := .basic ⟨x - v⟩) (by rw [if_pos]; exact ha) (.inr rfl)
          (basic_out (by show v + 0 = v; simp) (UInt64.le_of_lt hv))
      have s2 : pushRecipients E (seenAs (.basic ⟨x⟩)) height
          ⟨c, [.extended ⟨[], a, 0, b, 0, v, 0, 1, 1, 0, proof⟩], []⟩ (AMap.set m a (.basic ⟨x - v⟩)) =
          (.ok (), (AMap.set m a (.basic ⟨x - v⟩)).set b (.basic ⟨x + v⟩)) := by
        refine forTxs_one ?_
        exact pushTx_seen (a := b) (y := .basic ⟨x⟩) (z := .basic ⟨x + v⟩) (by
          rw [AMap.set_ne _ _ (Ne.symm hab), if_pos hb]) (.inr (by
            show (if (0 : UInt8) &&& 0x01 = 0 then (0 : UInt8) else 0xFF) = 0
            decide)) rfl
      have s3 : createContracts E (seenAs (.basic ⟨x⟩)) height
          ⟨c, [.extended ⟨[], a, 0, b, 0, v, 0, 1, 1, 0, proof⟩], []⟩
          ((AMap.set m a (.basic ⟨x - v⟩)).set b (.basic ⟨x + v⟩)) =
          (.ok (), (AMap.set m a (.basic ⟨x - v⟩)).set b (.basic ⟨x + v⟩)) := by
        refine forTxs_one ?_
        show (if (0 : UInt8) &&& 0x01 ≠ 0 then createContract E _ _ _ else pure ()) _ = _
        rw [if_neg (by decide)]
        rfl
      have s4 : pruneAccounts E (seenAs (.basic ⟨x⟩))
          ⟨c, [.extended ⟨[], a, 0, b, 0, v, 0, 1, 1, 0, proof⟩], []⟩
          ((AMap.set m a (.basic ⟨x - v⟩)).set b (.basic ⟨x + v⟩)) =
          (.ok (), (AMap.set m a (.basic ⟨x - v⟩)).set b (.basic ⟨x + v⟩)) := by
        have g : (seenAs (.basic ⟨x⟩)).getAccount a ((AMap.set m a (.basic ⟨x - v⟩)).set b (.basic ⟨x + v⟩)) =
            (.ok (.basic ⟨x - v⟩), (AMap.set m a (.basic ⟨x - v⟩)).set b (.basic ⟨x + v⟩)) := by
          show (Out.ok (if _ = _ then _ else _), _) = _
          rw [AMap.set_ne _ _ hab, AMap.set_same, if_neg (hx0 hxv)]
        unfold pruneAccounts pruneLoop
        rw [M.bind_run, M.bind_run]
        have gs : ∀ tx, tx = Tx.extended ⟨[], a, 0, b, 0, v, 0, 1, 1, 0, proof⟩ → (tx.getSender E.H).1 = a := by
          rintro _ rfl; rfl
        rw [gs _ rfl, g]
        simp only []
        rw [if_pos (.inr rfl)]
        rfl
      have s5 : pushInherents (seenAs (.basic ⟨x⟩)) height
          ⟨c, [.extended ⟨[], a, 0, b, 0, v, 0, 1, 1, 0, proof⟩], []⟩
          ((AMap.set m a (.basic ⟨x - v⟩)).set b (.basic ⟨x + v⟩)) = (.ok (),
        ((AMap.set m a (.basic ⟨x - v⟩)).set b (.basic ⟨x + v⟩)).set c (.basic ⟨x + rewardAt height⟩)) := by
        unfold pushInherents
        have g : (seenAs (.basic ⟨x⟩)).blockReward height ((AMap.set m a (.basic ⟨x - v⟩)).set b (.basic ⟨x + v⟩)) =
            (.ok (rewardAt height), (AMap.set m a (.basic ⟨x - v⟩)).set b (.basic ⟨x + v⟩)) := by
          show (if height = 0 then _ else _) = _
          rw [if_neg hh]
        rw [M.bind_run, g]
        refine pushTx_seen (y := .basic ⟨x⟩) ?_ (.inr rfl) ?_
        · rw [if_pos]; rw [AMap.set_ne _ _ (Ne.symm hbc), AMap.set_ne _ _ (Ne.symm hac)]; exact hc
        · show Out.ok (Account.basic ⟨x + (rewardAt height + 0)⟩) = _
          simp
      show (pushSenders E _ height _ >>= fun _ => _) m = _
      rw [M.bind_run, s1]
      show (pushRecipients E _ height _ >>= fun _ => _) _ = _
      rw [M.bind_run, s2]
      show (createContracts E _ height _ >>= fun _ => _) _ = _
      rw [M.bind_run, s3]
      show (pruneAccounts E _ _ >>= fun _ => _) _ = _
      rw [M.bind_run, s4]
      exact s5
    have e2' := e2.accountOf
    rw [key] at e1 e2'
    simp only [] at e1 e2'
    refine ⟨e1, ?_, ?_, ?_⟩
    · show accountOf (Mem.push E block _).2.node a = _
      rw [e2', AMap.set_ne _ _ hac, AMap.set_ne _ _ hab, AMap.set_same]
    · show accountOf (Mem.push E block _).2.node b = _
      rw [e2', AMap.set_ne _ _ hbc, AMap.set_same]
    · show accountOf (Mem.push E block _).2.node c = _
      rw [e2', AMap.set_same]

/-- The hypotheses of `C105_shared_violated` are met, for instance in a fresh process by all addresses. -/
example (E : Env) (d : Addr) : Uses E (· ≠ 0) newMem ∧ accountOf newMem.node d = .basic ⟨0⟩ := by
  refine ⟨.new, ?_⟩
  show accountOf newNode d = _
  rw [(rel_new E.H).accountOf]
  rfl

end Nimiq.Accounts
