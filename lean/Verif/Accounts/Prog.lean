import Verif.Accounts.Handmade
/-!
# `Push` as a program over the three operations of a ledger

`Push` does nothing but read accounts, write accounts and ask for the reward, one after the other; each step may depend on the
answers so far.  `Prog` has those programs, and `push_prog` says that `Push` is one of them, whatever ledger it runs on.
Theorems about all points in time of a push are then inductions over programs.
-/
namespace Nimiq.Accounts
open Wire

/-- A program over the operations of a ledger. -/
inductive Prog (α : Type) : Type where
  | done (o : Out α)
  | get (a : Addr) (k : Account → Prog α)
  | put (a : Addr) (x : Option Account) (k : Prog α)
  | reward (h : UInt32) (k : UInt64 → Prog α)

/-- The program, run on a ledger. -/
def Prog.run {σ α : Type} (L : Ledger σ) : Prog α → M σ α
  | .done o => M.lift o
  | .get a k => L.getAccount a >>= fun x => (k x).run L
  | .put a x k => L.putAccount a x >>= fun _ => k.run L
  | .reward h k => L.blockReward h >>= fun r => (k r).run L

/-- One program after the other. -/
def Prog.bind {α β : Type} : Prog α → (α → Prog β) → Prog β
  | .done (.ok a), f => f a
  | .done (.err e), _ => .done (.err e)
  | .done .panic, _ => .done .panic
  | .get a k, f => .get a fun x => (k x).bind f
  | .put a x k, f => .put a x (k.bind f)
  | .reward h k, f => .reward h fun r => (k r).bind f

theorem Prog.run_bind {σ α β : Type} (L : Ledger σ) (p : Prog α) (f : α → Prog β) :
    (p.bind f).run L = p.run L >>= fun a => (f a).run L := by
  induction p with
  | done o => cases o <;> rfl
  | get a k ih => simp only [Prog.bind, Prog.run, M.assoc, ih]
  | put a x k ih => simp only [Prog.bind, Prog.run, M.assoc, ih]
  | reward h k ih => simp only [Prog.bind, Prog.run, M.assoc, ih]

/-- A family of calls, one for every ledger, that is a program. -/
def HasProg {α : Type} (x : (σ : Type) → Ledger σ → M σ α) : Prop := ∃ p : Prog α, ∀ σ (L : Ledger σ), x σ L = p.run L

namespace HasProg
variable {α β : Type}

theorem lift (o : Out α) : HasProg fun _ _ => (M.lift o : M _ α) := ⟨.done o, fun _ _ => rfl⟩
theorem pure (a : α) : HasProg fun _ _ => (Pure.pure a : M _ α) := ⟨.done (.ok a), fun _ _ => rfl⟩
theorem throw (e : Err) : HasProg fun _ _ => (M.throw e : M _ α) := ⟨.done (.err e), fun _ _ => rfl⟩
theorem panic : HasProg fun _ _ => (M.panic : M _ α) := ⟨.done .panic, fun _ _ => rfl⟩

theorem bind_pure {σ : Type} (x : M σ α) : (x >>= fun a => M.lift (.ok a)) = x := by
  funext s
  rw [M.bind_eq]
  rcases x s with ⟨o, s'⟩
  cases o <;> rfl

theorem get (a : Addr) : HasProg fun _ L => L.getAccount a :=
  ⟨.get a fun x => .done (.ok x), fun _ _ => (bind_pure _).symm⟩
theorem put (a : Addr) (x : Option Account) : HasProg fun _ L => L.putAccount a x :=
  ⟨.put a x (.done (.ok ())), fun _ _ => (bind_pure _).symm⟩
theorem reward (h : UInt32) : HasProg fun _ L => L.blockReward h :=
  ⟨.reward h fun x => .done (.ok x), fun _ _ => (bind_pure _).symm⟩

theorem bind {x : (σ : Type) → Ledger σ → M σ α} {f : α → (σ : Type) → Ledger σ → M σ β} (hx : HasProg x)
    (hf : ∀ a, HasProg (f a)) : HasProg fun σ L => x σ L >>= fun a => f a σ L := by
  obtain ⟨p, hp⟩ := hx
  have hf' : ∀ a, ∃ q : Prog β, ∀ σ (L : Ledger σ), f a σ L = q.run L := hf
  obtain ⟨q, hq⟩ := Classical.axiomOfChoice hf'
  refine ⟨p.bind q, fun σ L => ?_⟩
  show (x σ L >>= fun a => f a σ L) = _
  rw [Prog.run_bind, hp]
  congr
  funext a
  exact hq a σ L

theorem ite {c : Prop} [Decidable c] {x y : (σ : Type) → Ledger σ → M σ α} (hx : HasProg x) (hy : HasProg y) :
    HasProg fun σ L => if c then x σ L else y σ L := by
  by_cases hc : c
  · simpa only [if_pos hc] using hx
  · simpa only [if_neg hc] using hy

theorem forTxs {f : Tx → (σ : Type) → Ledger σ → M σ Unit} (hf : ∀ tx, HasProg (f tx)) :
    ∀ txs, HasProg fun σ L => Accounts.forTxs txs fun tx => f tx σ L
  | [] => .pure ()
  | tx :: txs => .bind (hf tx) fun _ => forTxs hf txs

variable (E : Env)

theorem pushTx (a : Addr) (ty : UInt8) (tx : Tx) (h : UInt32) (op : AccountOp) :
    HasProg fun _ L => Accounts.pushTx L a ty tx h op :=
  .bind (.get a) fun _ => .ite (.throw _) (.bind (.lift _) fun _ => .put a _)

theorem createContract (tx : Tx) (h : UInt32) : HasProg fun _ L => Accounts.createContract E L tx h :=
  .ite .panic (.bind (.get _) fun _ => .ite (.throw _)
    (.ite (.bind (.lift _) fun _ => .put _ _) (.ite (.bind (.lift _) fun _ => .put _ _) (.throw _))))

theorem pruneLoop : ∀ (txs : List Tx) (pm : PruneMap), HasProg fun _ L => Accounts.pruneLoop E L txs pm
  | [], pm => .pure pm
  | tx :: txs, pm => by
    unfold Accounts.pruneLoop
    refine .bind (.get _) fun acc => .ite (pruneLoop txs pm) ?_
    cases pm.get (tx.getSender E.H).1 with
    | none => exact .throw _
    | some x => exact .ite (.throw _) (.bind (.put _ _) fun _ => pruneLoop txs _)

/-- `Push` is a program. -/
theorem push (block : Block) : HasProg fun _ L => Accounts.push E L block := by
  unfold Accounts.push
  cases block.body with
  | none => exact .panic
  | some body =>
    refine .bind (.forTxs (fun tx => .pushTx _ _ _ _ _) _) fun _ => ?_
    refine .bind (.forTxs (fun tx => .pushTx _ _ _ _ _) _) fun _ => ?_
    refine .bind (.forTxs (fun tx => .ite (.createContract E _ _) (.pure ())) _) fun _ => ?_
    refine .bind ?_ fun _ => ?_
    · unfold Accounts.pruneAccounts
      refine .bind (.pruneLoop E _ _) fun pm => ?_
      by_cases h : pm.map (·.1) ≠ []
      · simp only [dif_pos h]; exact .throw _
      · simp only [dif_neg h]; exact .pure ()
    · exact .bind (.reward _) fun r => .pushTx _ _ _ _ _

end HasProg
end Nimiq.Accounts
