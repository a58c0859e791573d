import Verif.Accounts.PruneProps
import Verif.Accounts.Witness
/-!
# C139: order and repetitions in the prune list
-/
namespace Nimiq.Accounts
open Beserial Beserial.Spec Wire Spec

/-- Two outcomes of `Push` that differ at most in the address an error "pruned early" names. -/
def SameOutcome (o o' : Out Unit) : Prop :=
  o = o' ∨ ∃ a b, o = .err (.pruneEarly a) ∧ o' = .err (.pruneEarly b)

section
variable {σ : Type} (E : Env) (L : Ledger σ)

/-- Two maps that answer the same lead through the loop in the same way. -/
theorem pruneLoop_same : ∀ (txs : List Tx) (m m' : PruneMap), (∀ a, m.get a = m'.get a) → ∀ s,
    (pruneLoop E L txs m s).2 = (pruneLoop E L txs m' s).2 ∧
    ((∃ r r', (pruneLoop E L txs m s).1 = .ok r ∧ (pruneLoop E L txs m' s).1 = .ok r' ∧ ∀ a, r.get a = r'.get a) ∨
     (∃ e, (pruneLoop E L txs m s).1 = .err e ∧ (pruneLoop E L txs m' s).1 = .err e) ∨
     ((pruneLoop E L txs m s).1 = .panic ∧ (pruneLoop E L txs m' s).1 = .panic)) := by
  intro txs
  induction txs with
  | nil => intro m m' h s; exact ⟨rfl, .inl ⟨m, m', rfl, rfl, h⟩⟩
  | cons tx txs ih =>
    intro m m' h s
    simp only [pruneLoop]
    rw [M.bind_eq, M.bind_eq]
    rcases L.getAccount (tx.getSender E.H).1 s with ⟨o, s1⟩
    cases o with
    | err e => exact ⟨rfl, .inr (.inl ⟨e, rfl, rfl⟩)⟩
    | panic => exact ⟨rfl, .inr (.inr ⟨rfl, rfl⟩)⟩
    | ok acc =>
      simp only []
      by_cases hc : isEmpty acc = false ∨ acc.type = 0
      · rw [if_pos hc, if_pos hc]; exact ih m m' h s1
      · rw [if_neg hc, if_neg hc, ← h]
        cases hq : m.get (tx.getSender E.H).1 with
        | none => exact ⟨rfl, .inr (.inl ⟨_, rfl, rfl⟩)⟩
        | some q =>
          simp only []
          by_cases he : accountEq q (some acc) = false
          · rw [if_pos he, if_pos he]; exact ⟨rfl, .inr (.inl ⟨_, rfl, rfl⟩)⟩
          · rw [if_neg he, if_neg he, M.bind_eq, M.bind_eq]
            rcases L.putAccount (tx.getSender E.H).1 none s1 with ⟨o, s2⟩
            cases o with
            | err e => exact ⟨rfl, .inr (.inl ⟨e, rfl, rfl⟩)⟩
            | panic => exact ⟨rfl, .inr (.inr ⟨rfl, rfl⟩)⟩
            | ok u => exact ih _ _ (fun a => by rw [PruneMap.get_del, PruneMap.get_del, h]) s2

theorem pruneAccounts_same (miner : Addr) (txs : List Tx) (p p' : List (Addr × Option Account))
    (h : ∀ a, listed p a = listed p' a) (s : σ) :
    (pruneAccounts E L ⟨miner, txs, p⟩ s).2 = (pruneAccounts E L ⟨miner, txs, p'⟩ s).2 ∧
    SameOutcome (pruneAccounts E L ⟨miner, txs, p⟩ s).1 (pruneAccounts E L ⟨miner, txs, p'⟩ s).1 := by
  have hm : ∀ a, (pruneMap p).get a = (pruneMap p').get a := fun a => by
    rw [pruneMap_get, pruneMap_get]; exact h a
  have key := pruneLoop_same E L txs (pruneMap p) (pruneMap p') hm s
  unfold pruneAccounts
  rw [M.bind_eq, M.bind_eq]
  simp only []
  revert key
  rcases pruneLoop E L txs (pruneMap p) s with ⟨o, s1⟩
  rcases pruneLoop E L txs (pruneMap p') s with ⟨o', s2⟩
  rintro ⟨hs, ⟨r, r', h1, h2, hr⟩ | ⟨e, h1, h2⟩ | ⟨h1, h2⟩⟩
  · simp only [] at hs h1 h2; subst hs h1 h2
    simp only []
    by_cases he : r = []
    · subst he
      have : r' = [] := PruneMap.eq_nil fun a => by rw [← hr]; rfl
      subst this
      exact ⟨rfl, .inl rfl⟩
    · have he' : r' ≠ [] := fun h0 => he (PruneMap.eq_nil fun a => by rw [hr, h0]; rfl)
      have d : r.map (·.1) ≠ [] := by simpa using he
      have d' : r'.map (·.1) ≠ [] := by simpa using he'
      rw [dif_pos d, dif_pos d']
      exact ⟨rfl, .inr ⟨_, _, rfl, rfl⟩⟩
  · simp only [] at hs h1 h2; subst hs h1 h2; exact ⟨rfl, .inl rfl⟩
  · simp only [] at hs h1 h2; subst hs h1 h2; exact ⟨rfl, .inl rfl⟩

theorem push_same (height : UInt32) (hash hash' : Hash32) (miner : Addr) (txs : List Tx) (p p' : List (Addr × Option Account))
    (h : ∀ a, listed p a = listed p' a) (s : σ) :
    (push E L ⟨height, hash, some ⟨miner, txs, p⟩⟩ s).2 = (push E L ⟨height, hash', some ⟨miner, txs, p'⟩⟩ s).2 ∧
    SameOutcome (push E L ⟨height, hash, some ⟨miner, txs, p⟩⟩ s).1 (push E L ⟨height, hash', some ⟨miner, txs, p'⟩⟩ s).1 := by
  have pass : ∀ (x : M σ Unit) (f g : Unit → M σ Unit),
      (∀ s, (f () s).2 = (g () s).2 ∧ SameOutcome (f () s).1 (g () s).1) →
      ∀ s, ((x >>= f) s).2 = ((x >>= g) s).2 ∧ SameOutcome ((x >>= f) s).1 ((x >>= g) s).1 := by
    intro x f g hfg s
    rw [M.bind_eq, M.bind_eq]
    rcases x s with ⟨o, s1⟩
    cases o with
    | ok u => exact hfg s1
    | err e => exact ⟨rfl, .inl rfl⟩
    | panic => exact ⟨rfl, .inl rfl⟩
  unfold push
  refine pass _ _ _ (pass _ _ _ (pass _ _ _ ?_)) s
  intro s
  have key := pruneAccounts_same E L miner txs p p' h s
  rw [M.bind_eq, M.bind_eq]
  revert key
  rcases pruneAccounts E L ⟨miner, txs, p⟩ s with ⟨o, s1⟩
  rcases pruneAccounts E L ⟨miner, txs, p'⟩ s with ⟨o', s2⟩
  rintro ⟨hs, ho⟩
  simp only [] at hs ho
  subst hs
  rcases ho with ho | ⟨a, b, h1, h2⟩
  · subst ho
    cases o <;> exact ⟨rfl, .inl rfl⟩
  · subst h1 h2
    exact ⟨rfl, .inr ⟨a, b, rfl, rfl⟩⟩

end

variable (E : Env)

/-- C139. Of a prune list only the last entry for every address counts: two blocks whose lists have the same last entries do the
same to any node - accepted or refused, with the same resulting state and the same error, except that of several addresses
wrongly on the list the error may name another. -/
theorem C139_last_entries (n : Node) (height : UInt32) (hash hash' : Hash32) (miner : Addr) (txs : List Tx)
    (p p' : List (Addr × Option Account)) (h : ∀ a, listed p a = listed p' a) :
    (Push E ⟨height, hash, some ⟨miner, txs, p⟩⟩ n).2 = (Push E ⟨height, hash', some ⟨miner, txs, p'⟩⟩ n).2 ∧
    SameOutcome (Push E ⟨height, hash, some ⟨miner, txs, p⟩⟩ n).1 (Push E ⟨height, hash', some ⟨miner, txs, p'⟩⟩ n).1 :=
  push_same E (nodeLedger E.H) height hash hash' miner txs p p' h n

/-- A list that names no address twice says the same in any order. -/
theorem listed_perm {p p' : List (Addr × Option Account)} (hp : p.Perm p') (hd : (p.map (·.1)).Nodup) (a : Addr) :
    listed p a = listed p' a := by
  have hf := hp.filter fun e => decide (e.1 = a)
  have hlen : (p.filter fun e => decide (e.1 = a)).length ≤ 1 := by
    clear hf hp
    induction p with
    | nil => simp
    | cons e es ih =>
      rw [List.map_cons, List.nodup_cons] at hd
      by_cases he : e.1 = a
      · rw [List.filter_cons_of_pos (by simpa using he)]
        have : (es.filter fun e => decide (e.1 = a)) = [] := by
          rw [List.filter_eq_nil_iff]
          intro x hx hxa
          exact hd.1 (List.mem_map.mpr ⟨x, hx, (of_decide_eq_true hxa).trans he.symm⟩)
        rw [this]; simp
      · rw [List.filter_cons_of_neg (by simpa using he)]
        exact ih hd.2
  unfold listed
  congr 2
  rcases hq : p.filter (fun e => decide (e.1 = a)) with _ | ⟨x, _ | ⟨y, r⟩⟩
  · rw [hq] at hf; rw [hq, hf.nil_eq]
  · rw [hq] at hf; rw [hq, List.singleton_perm.mp hf]
  · rw [hq] at hlen; simp at hlen

/-- An entry that a later one for the same address follows says nothing. -/
theorem listed_superseded (l r : List (Addr × Option Account)) (e : Addr × Option Account) (h : ∃ x ∈ r, x.1 = e.1) (a : Addr) :
    listed (l ++ e :: r) a = listed (l ++ r) a := by
  unfold listed
  rw [List.filter_append, List.filter_append]
  by_cases he : e.1 = a
  · obtain ⟨x, hx, hxe⟩ := h
    rw [List.filter_cons_of_pos (by simpa using he)]
    have hne : (r.filter fun e => decide (e.1 = a)) ≠ [] :=
      List.ne_nil_of_mem (List.mem_filter.mpr ⟨hx, by simpa using hxe.trans he⟩)
    obtain ⟨y, ys, hy⟩ := List.exists_cons_of_ne_nil hne
    rw [hy, List.getLast?_append, List.getLast?_append, List.getLast?_cons_cons]
  · rw [List.filter_cons_of_neg (by simpa using he)]

/-- C139. The order of a prune list that names no address twice does not matter. -/
theorem C139_order (n : Node) (height : UInt32) (hash hash' : Hash32) (miner : Addr) (txs : List Tx)
    (p p' : List (Addr × Option Account)) (hp : p.Perm p') (hd : (p.map (·.1)).Nodup) :
    (Push E ⟨height, hash, some ⟨miner, txs, p⟩⟩ n).2 = (Push E ⟨height, hash', some ⟨miner, txs, p'⟩⟩ n).2 ∧
    SameOutcome (Push E ⟨height, hash, some ⟨miner, txs, p⟩⟩ n).1 (Push E ⟨height, hash', some ⟨miner, txs, p'⟩⟩ n).1 :=
  C139_last_entries E n height hash hash' miner txs p p' (listed_perm hp hd)

/-- C139. An entry followed by a later one for the same address is ignored, whatever account it quotes: nothing in a block but
the last entry for an address is checked. -/
theorem C139_superseded (n : Node) (height : UInt32) (hash hash' : Hash32) (miner : Addr) (txs : List Tx)
    (l r : List (Addr × Option Account)) (e : Addr × Option Account) (h : ∃ x ∈ r, x.1 = e.1) :
    (Push E ⟨height, hash, some ⟨miner, txs, l ++ e :: r⟩⟩ n).2 = (Push E ⟨height, hash', some ⟨miner, txs, l ++ r⟩⟩ n).2 ∧
    SameOutcome (Push E ⟨height, hash, some ⟨miner, txs, l ++ e :: r⟩⟩ n).1
      (Push E ⟨height, hash', some ⟨miner, txs, l ++ r⟩⟩ n).1 :=
  C139_last_entries E n height hash hash' miner txs _ _ (listed_superseded l r e h)

/-- C139. The same of an accepted block: it stays accepted when entries are added that later ones supersede, with the same
accounts. So a block can be padded with entries that quote anything without becoming invalid. -/
theorem C139_padding (n n' : Node) (height : UInt32) (hash : Hash32) (miner : Addr) (txs : List Tx)
    (p junk : List (Addr × Option Account)) (hj : ∀ e ∈ junk, ∃ x ∈ p, x.1 = e.1)
    (h : Push E ⟨height, hash, some ⟨miner, txs, p⟩⟩ n = (.ok (), n')) :
    Push E ⟨height, hash, some ⟨miner, txs, junk ++ p⟩⟩ n = (.ok (), n') := by
  have hl : ∀ a, listed (junk ++ p) a = listed p a := by
    intro a
    induction junk with
    | nil => rfl
    | cons e es ih =>
      have := listed_superseded [] (es ++ p) e
        (by obtain ⟨x, hx, hxe⟩ := hj e (by simp); exact ⟨x, by simp [hx], hxe⟩) a
      rw [List.cons_append]
      exact this.trans (ih fun e he => hj e (by simp [he]))
  obtain ⟨h1, h2⟩ := C139_last_entries E n height hash hash miner txs _ _ hl
  rw [h] at h1 h2
  rcases h2 with h2 | ⟨a, b, _, hb⟩
  · exact Prod.ext h2 h1
  · exact absurd hb (by simp)

/-- The hypotheses are met: the block of `prune_witness`, which empties a contract and prunes it, is still accepted with a
second entry in front that quotes the contract with another balance; and a block with the two in the other order is refused. -/
theorem C139_witness (key : BArr 32) (sig : BArr 64) (a b c : Addr) (hab : a ≠ b) (hac : a ≠ c) (hbc : b ≠ c) (hash : Hash32) :
    let acc : HTLCAccount := ⟨5, publicKeyToAddress E.H key, b, ⟨3, BArr.zero 32⟩, 1, 10, 5⟩
    let n := (Node.putAccount E.H a (some (.htlc acc)) newNode).2
    let tx : Tx := .extended ⟨[], a, 2, b, 0, 5, 0, 1, 1, 0, 3 :: (key.val ++ 0 :: sig.val)⟩
    (Push E ⟨11, hash, some ⟨c, [tx], [(a, some (.htlc acc)), (a, some (.htlc { acc with value := 0 }))]⟩⟩ n).1 = .ok () ∧
    (Push E ⟨11, hash, some ⟨c, [tx], [(a, some (.htlc { acc with value := 0 })), (a, some (.htlc acc))]⟩⟩ n).1 ≠ .ok () := by
  intro acc n tx
  have hw := (prune_witness E key sig a b c hab hac hbc hash).1
  have hn : Reach E n := .put _ _ .new
  constructor
  · have := C139_padding E n _ 11 hash c [tx] [(a, some (.htlc { acc with value := 0 }))] [(a, some (.htlc acc))]
      (by simp) (Prod.ext hw rfl)
    rw [List.cons_append, List.nil_append] at this
    rw [this]
  · intro hcon
    have := ((C59_list_unique hn 11 hash c [tx] [(a, some (.htlc { acc with value := 0 }))]
      [(a, some (.htlc { acc with value := 0 })), (a, some (.htlc acc))] (Prod.ext hw rfl)).1.mp hcon) a
    simp [listed, acc] at this

end Nimiq.Accounts
