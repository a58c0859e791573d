import Verif.Accounts.Prog
import Verif.Accounts.Witness
/-!
# What a block reads (C130)

`Push` reads no account but the miner's and the senders' and recipients' of the block's transactions.  Together with C58 (it
writes no other): blocks that have no account in common can be pushed in either order.
-/
namespace Nimiq.Accounts
open Wire

/-- Specification: the accounts a block names — the miner and the senders and recipients of its transactions. -/
def Involves (E : Env) (block : Block) (b : Addr) : Prop :=
  ∃ body, block.body = some body ∧ (b = body.minerAddr ∨ ∃ tx ∈ body.txs, (tx.getSender E.H).1 = b ∨ tx.getRecipient.1 = b)

/-! ## Programs that stay within a set of accounts -/

/-- Every account the program may read or write is in `P`. -/
def Prog.Within (P : Addr → Prop) {α : Type} : Prog α → Prop
  | .done _ => True
  | .get a k => P a ∧ ∀ x, (k x).Within P
  | .put a _ k => P a ∧ k.Within P
  | .reward _ k => ∀ r, (k r).Within P

theorem Prog.Within.bind {P : Addr → Prop} {α β : Type} {p : Prog α} {f : α → Prog β} (hp : p.Within P)
    (hf : ∀ a, (f a).Within P) : (p.bind f).Within P := by
  induction p with
  | done o => cases o <;> first | exact hf _ | trivial
  | get a k ih => exact ⟨hp.1, fun x => ih x (hp.2 x)⟩
  | put a x k ih => exact ⟨hp.1, ih hp.2⟩
  | reward h k ih => exact fun r => ih r (hp r)

/-- A family of calls that is a program within `P`. -/
def HasProgIn (P : Addr → Prop) {α : Type} (x : (σ : Type) → Ledger σ → M σ α) : Prop :=
  ∃ p : Prog α, p.Within P ∧ ∀ σ (L : Ledger σ), x σ L = p.run L

namespace HasProgIn
variable {P : Addr → Prop} {α β : Type}

theorem lift (o : Out α) : HasProgIn P fun _ _ => (M.lift o : M _ α) := ⟨.done o, trivial, fun _ _ => rfl⟩
theorem pure (a : α) : HasProgIn P fun _ _ => (Pure.pure a : M _ α) := ⟨.done (.ok a), trivial, fun _ _ => rfl⟩
theorem throw (e : Err) : HasProgIn P fun _ _ => (M.throw e : M _ α) := ⟨.done (.err e), trivial, fun _ _ => rfl⟩
theorem panic : HasProgIn P fun _ _ => (M.panic : M _ α) := ⟨.done .panic, trivial, fun _ _ => rfl⟩

theorem get {a : Addr} (h : P a) : HasProgIn P fun _ L => L.getAccount a :=
  ⟨.get a fun x => .done (.ok x), ⟨h, fun _ => trivial⟩, fun _ _ => (HasProg.bind_pure _).symm⟩
theorem put {a : Addr} (h : P a) (x : Option Account) : HasProgIn P fun _ L => L.putAccount a x :=
  ⟨.put a x (.done (.ok ())), ⟨h, trivial⟩, fun _ _ => (HasProg.bind_pure _).symm⟩
theorem reward (h : UInt32) : HasProgIn P fun _ L => L.blockReward h :=
  ⟨.reward h fun x => .done (.ok x), fun _ => trivial, fun _ _ => (HasProg.bind_pure _).symm⟩

theorem bind {x : (σ : Type) → Ledger σ → M σ α} {f : α → (σ : Type) → Ledger σ → M σ β} (hx : HasProgIn P x)
    (hf : ∀ a, HasProgIn P (f a)) : HasProgIn P fun σ L => x σ L >>= fun a => f a σ L := by
  obtain ⟨p, hw, hp⟩ := hx
  have hf' : ∀ a, ∃ q : Prog β, q.Within P ∧ ∀ σ (L : Ledger σ), f a σ L = q.run L := hf
  obtain ⟨q, hq⟩ := Classical.axiomOfChoice hf'
  refine ⟨p.bind q, hw.bind fun a => (hq a).1, fun σ L => ?_⟩
  show (x σ L >>= fun a => f a σ L) = _
  rw [Prog.run_bind, hp]
  congr
  funext a
  exact (hq a).2 σ L

theorem ite {c : Prop} [Decidable c] {x y : (σ : Type) → Ledger σ → M σ α} (hx : HasProgIn P x) (hy : HasProgIn P y) :
    HasProgIn P fun σ L => if c then x σ L else y σ L := by
  by_cases hc : c
  · simpa only [if_pos hc] using hx
  · simpa only [if_neg hc] using hy

theorem forTxs {f : Tx → (σ : Type) → Ledger σ → M σ Unit} :
    ∀ txs, (∀ tx ∈ txs, HasProgIn P (f tx)) → HasProgIn P fun σ L => Accounts.forTxs txs fun tx => f tx σ L
  | [], _ => .pure ()
  | tx :: txs, hf => .bind (hf tx (by simp)) fun _ => forTxs txs fun t ht => hf t (by simp [ht])

variable (E : Env)

theorem pushTx {a : Addr} (h : P a) (ty : UInt8) (tx : Tx) (ht : UInt32) (op : AccountOp) :
    HasProgIn P fun _ L => Accounts.pushTx L a ty tx ht op :=
  .bind (.get h) fun _ => .ite (.throw _) (.bind (.lift _) fun _ => .put h _)

theorem createContract {tx : Tx} (h : P (tx.content E.H).recipient) (ht : UInt32) :
    HasProgIn P fun _ L => Accounts.createContract E L tx ht :=
  .ite .panic (.bind (.get h) fun _ => .ite (.throw _)
    (.ite (.bind (.lift _) fun _ => .put h _) (.ite (.bind (.lift _) fun _ => .put h _) (.throw _))))

theorem pruneLoop : ∀ (txs : List Tx) (pm : PruneMap), (∀ tx ∈ txs, P (tx.getSender E.H).1) →
    HasProgIn P fun _ L => Accounts.pruneLoop E L txs pm
  | [], pm, _ => .pure pm
  | tx :: txs, pm, h => by
    unfold Accounts.pruneLoop
    have h1 := h tx (by simp)
    have h2 : ∀ t ∈ txs, P (t.getSender E.H).1 := fun t ht => h t (by simp [ht])
    refine .bind (.get h1) fun acc => .ite (pruneLoop txs pm h2) ?_
    cases pm.get (tx.getSender E.H).1 with
    | none => exact .throw _
    | some x => exact .ite (.throw _) (.bind (.put h1 _) fun _ => pruneLoop txs _ h2)

/-- `Push` is a program within the accounts its block names. -/
theorem push (block : Block) : HasProgIn (Involves E block) fun _ L => Accounts.push E L block := by
  unfold Accounts.push
  cases hb : block.body with
  | none => exact .panic
  | some body =>
    have hs : ∀ tx ∈ body.txs, Involves E block (tx.content E.H).sender := fun tx ht =>
      ⟨body, hb, Or.inr ⟨tx, ht, Or.inl (by cases tx <;> rfl)⟩⟩
    have hs' : ∀ tx ∈ body.txs, Involves E block (tx.getSender E.H).1 := fun tx ht => ⟨body, hb, Or.inr ⟨tx, ht, Or.inl rfl⟩⟩
    have hr : ∀ tx ∈ body.txs, Involves E block (tx.content E.H).recipient := fun tx ht =>
      ⟨body, hb, Or.inr ⟨tx, ht, Or.inr (by cases tx <;> rfl)⟩⟩
    refine .bind (.forTxs _ fun tx ht => .pushTx (hs tx ht) _ _ _ _) fun _ => ?_
    refine .bind (.forTxs _ fun tx ht => .pushTx (hr tx ht) _ _ _ _) fun _ => ?_
    refine .bind (.forTxs _ fun tx ht => .ite (.createContract E (hr tx ht) _) (.pure ())) fun _ => ?_
    refine .bind ?_ fun _ => ?_
    · unfold Accounts.pruneAccounts
      refine .bind (.pruneLoop E _ _ hs') fun pm => ?_
      by_cases h : pm.map (·.1) ≠ []
      · simp only [dif_pos h]; exact .throw _
      · simp only [dif_neg h]; exact .pure ()
    · exact .bind (.reward _) fun r => .pushTx ⟨body, hb, Or.inl rfl⟩ _ _ _ _

end HasProgIn

/-- A program within `P`, on two maps that agree on `P`: the same outcome, agreement again, and nothing outside `P` changes. -/
theorem Prog.within_run {P : Addr → Prop} {α : Type} {p : Prog α} (hp : p.Within P) : ∀ (m m' : AMap), (∀ a, P a → m a = m' a) →
    (p.run mapLedger m).1 = (p.run mapLedger m').1 ∧
    (∀ a, P a → (p.run mapLedger m).2 a = (p.run mapLedger m').2 a) ∧
    (∀ a, ¬ P a → (p.run mapLedger m).2 a = m a) := by
  induction p with
  | done o => intro m m' h; exact ⟨rfl, h, fun _ _ => rfl⟩
  | get a k ih =>
    intro m m' h
    have e : ∀ m : AMap, ((Prog.get a k).run mapLedger m) = (k (m a)).run mapLedger m := fun m => rfl
    rw [e, e, ← h a hp.1]
    exact ih (m a) (hp.2 _) m m' h
  | put a x k ih =>
    intro m m' h
    have e : ∀ m : AMap, ((Prog.put a x k).run mapLedger m) = k.run mapLedger (m.set a (x.getD initialAccount)) := fun m => rfl
    rw [e, e]
    obtain ⟨h1, h2, h3⟩ := ih hp.2 (m.set a (x.getD initialAccount)) (m'.set a (x.getD initialAccount)) (fun b hb => by
      unfold AMap.set; split
      · rfl
      · exact h b hb)
    refine ⟨h1, h2, fun b hb => (h3 b hb).trans (AMap.set_ne _ _ ?_)⟩
    rintro rfl
    exact hb hp.1
  | reward g k ih =>
    intro m m' h
    by_cases hg : g = 0
    · have e : ∀ m : AMap, ((Prog.reward g k).run mapLedger m) = (.panic, m) := fun m => by
        have hb : mapLedger.blockReward g m = (.panic, m) := if_pos hg
        simp only [Prog.run, M.bind_eq, hb]
      rw [e, e]
      exact ⟨rfl, h, fun _ _ => rfl⟩
    · have e : ∀ m : AMap, ((Prog.reward g k).run mapLedger m) = (k (rewardAt g)).run mapLedger m := fun m => by
        have hb : mapLedger.blockReward g m = (.ok (rewardAt g), m) := if_neg hg
        simp only [Prog.run, M.bind_eq, hb]
      rw [e, e]
      exact ih _ (hp _) m m' h

variable {E : Env} {n n1 n2 : Node}

theorem push_local (block : Block) (m m' : AMap) (h : ∀ a, Involves E block a → m a = m' a) :
    (push E mapLedger block m).1 = (push E mapLedger block m').1 ∧
    (∀ a, Involves E block a → (push E mapLedger block m).2 a = (push E mapLedger block m').2 a) ∧
    (∀ a, ¬ Involves E block a → (push E mapLedger block m).2 a = m a) := by
  obtain ⟨p, hw, hp⟩ := HasProgIn.push E block
  have := Prog.within_run hw m m' h
  rw [← hp] at this
  exact this

/-- **C130**: what a block does depends on nothing but the accounts it names. Two nodes, however they came about, that answer
`GetAccount` alike for the miner and the senders and recipients of the block — and differ as they like elsewhere: the push has
the same outcome on both (the same error, if any), leaves these accounts the same on both, and leaves all others as they were. -/
theorem C130_local (h1 : Reach E n1) (h2 : Reach E n2) (block : Block)
    (hsame : ∀ a, Involves E block a → (Node.getAccount a n1).1 = (Node.getAccount a n2).1) :
    (Push E block n1).1 = (Push E block n2).1 ∧
    (∀ a, Involves E block a → (Node.getAccount a (Push E block n1).2).1 = (Node.getAccount a (Push E block n2).2).1) ∧
    (∀ a, ¬ Involves E block a → (Node.getAccount a (Push E block n1).2).1 = (Node.getAccount a n1).1) := by
  have p1 := h1.acc.push block
  have p2 := h2.acc.push block
  obtain ⟨l1, l2, l3⟩ := push_local (E := E) block (accountOf n1) (accountOf n2) (fun a ha => by
    unfold accountOf; rw [hsame a ha])
  refine ⟨by rw [p1.1, p2.1, l1], fun a ha => ?_, fun a ha => ?_⟩
  · rw [p1.2.getAccount, p2.2.getAccount, l2 a ha]
  · rw [p1.2.getAccount, h1.acc.getAccount, l3 a ha]

/-- **C130**: two blocks that name no common account can be pushed in either order: each has the outcome it has alone, whichever
comes first (also if one fails half-way and keeps what it wrote), and the accounts and the tree hash at the end are the same. -/
theorem C130_commute (hn : Reach E n) (b1 b2 : Block) (hd : ∀ a, ¬ (Involves E b1 a ∧ Involves E b2 a)) :
    (Push E b1 (Push E b2 n).2).1 = (Push E b1 n).1 ∧ (Push E b2 (Push E b1 n).2).1 = (Push E b2 n).1 ∧
    (∀ a, (Node.getAccount a (Push E b1 (Push E b2 n).2).2).1 = (Node.getAccount a (Push E b2 (Push E b1 n).2).2).1) ∧
    (Node.hash E.H (Push E b1 (Push E b2 n).2).2).1 = (Node.hash E.H (Push E b2 (Push E b1 n).2).2).1 := by
  have frame : ∀ (b : Block) {n : Node}, Reach E n → ∀ a, ¬ Involves E b a →
      accountOf (Push E b n).2 a = accountOf n a := by
    intro b n hn a ha
    have := (C130_local hn hn b (fun _ _ => rfl)).2.2 a ha
    unfold accountOf
    rw [this]
  have swap : ∀ (b b' : Block), (∀ a, ¬ (Involves E b a ∧ Involves E b' a)) →
      (Push E b (Push E b' n).2).1 = (Push E b n).1 ∧
      ∀ a, Involves E b a → accountOf (Push E b (Push E b' n).2).2 a = accountOf (Push E b n).2 a := by
    intro b b' hd
    obtain ⟨x1, x2, _⟩ := C130_local (hn.push b') hn b (fun a ha => by
      have hf := frame b' hn a (fun h => hd a ⟨ha, h⟩)
      rw [(hn.push b').acc.getAccount, hn.acc.getAccount, hf])
    refine ⟨x1, fun a ha => ?_⟩
    unfold accountOf
    rw [x2 a ha]
  obtain ⟨s1, s2⟩ := swap b1 b2 hd
  obtain ⟨t1, t2⟩ := swap b2 b1 (fun a h => hd a ⟨h.2, h.1⟩)
  have key : accountOf (Push E b1 (Push E b2 n).2).2 = accountOf (Push E b2 (Push E b1 n).2).2 := by
    funext a
    by_cases ha : Involves E b1 a
    · rw [s2 a ha, frame b2 (hn.push b1) a (fun h => hd a ⟨ha, h⟩)]
    · rw [frame b1 (hn.push b2) a ha]
      by_cases hb : Involves E b2 a
      · rw [t2 a hb]
      · rw [frame b2 hn a hb, frame b2 (hn.push b1) a hb, frame b1 hn a ha]
  have q1 := ((hn.push b2).push b1).acc
  have q2 := ((hn.push b1).push b2).acc
  refine ⟨s1, t1, fun a => ?_, ?_⟩
  · rw [q1.getAccount, q2.getAccount, key]
  · rw [q1.hash, q2.hash, key]

/-- The block of `Witness.lean` — a transfer, a withdrawal, a refund with a prune and a contract creation — and a transfer from
address 8 to address 9 with miner 10 have no account in common; on the node where address 8 has money, the first is accepted
before and after the second (C130). -/
example : ∃ (n : Node) (b2 : Block), Reach E n ∧ (∀ a, ¬ (Involves E (Witness.block E) a ∧ Involves E b2 a)) ∧
    (∃ a, Involves E (Witness.block E) a) ∧ (∃ a, Involves E b2 a) ∧
    (Push E (Witness.block E) (Push E b2 n).2).1 = .ok () ∧ (Push E (Witness.block E) n).1 = .ok () := by
  let b2 : Block := ⟨12, BArr.zero 32, some ⟨Witness.addr 10, [.extended ⟨[], Witness.addr 8, 0, Witness.addr 9, 0, 30, 2, 1, 1, 0, []⟩], []⟩⟩
  have hn : Reach E (Node.putAccount E.H (Witness.addr 8) (some (.basic ⟨100⟩)) (Witness.node E)).2 := .put _ _ (Witness.node_reach E)
  have i1 : ∀ a, Involves E (Witness.block E) a → a ∈ [1, 2, 3, 4, 5, 6].map Witness.addr := by
    rintro a ⟨body, hb, h⟩
    cases hb
    rcases h with rfl | ⟨tx, ht, h⟩
    · simp [Witness.body]
    · simp only [Witness.body, List.mem_cons, List.not_mem_nil, or_false] at ht
      rcases ht with rfl | rfl | rfl | rfl <;> rcases h with rfl | rfl <;>
        simp [Witness.t1, Witness.t2, Witness.t3, Witness.t4, Tx.getSender, Tx.getRecipient]
  have i2 : ∀ a, Involves E b2 a → a ∈ [8, 9, 10].map Witness.addr := by
    rintro a ⟨body, hb, h⟩
    cases hb
    rcases h with rfl | ⟨tx, ht, h⟩
    · simp
    · simp only [List.mem_cons, List.not_mem_nil, or_false] at ht
      subst ht
      rcases h with rfl | rfl <;> simp [Tx.getSender, Tx.getRecipient]
  have hd : ∀ a, ¬ (Involves E (Witness.block E) a ∧ Involves E b2 a) := by
    rintro a ⟨h1, h2⟩
    have h1 := i1 a h1
    have h2 := i2 a h2
    simp only [List.map_cons, List.map_nil, List.mem_cons, List.not_mem_nil, or_false] at h1 h2
    rcases h1 with rfl | rfl | rfl | rfl | rfl | rfl <;> simp at h2
  have e := C130_commute hn (Witness.block E) b2 hd
  have l := C130_local hn (Witness.node_reach E) (Witness.block E) (fun a ha => by
    rw [(C54_read_your_writes (Witness.node_reach E) (Witness.addr 8) a (some (.basic ⟨100⟩))).2.2, if_neg]
    rintro rfl
    have := i1 _ ha
    simp at this)
  have hok : (Push E (Witness.block E) (Witness.node E)).1 = .ok () := by rw [Witness.rich_ok E]
  refine ⟨_, b2, hn, hd, ⟨_, _, rfl, Or.inl rfl⟩, ⟨_, _, rfl, Or.inl rfl⟩, ?_, ?_⟩
  · rw [e.1, l.1, hok]
  · rw [l.1, hok]

end Nimiq.Accounts
