import Verif.Genesis.MainFile
import Verif.Genesis.TestFile
import Verif.Genesis.Replay
import Verif.Accounts.ChainSupply
/-!
# C112: the two built-in profiles

`MainFile.lean` and `TestFile.lean` hold the embedded `*.block.bin` and `*.accounts.bin` files, byte for byte.  What the toml
decoder makes of the `*.toml` files is a parameter, as everywhere.
-/
namespace Nimiq.Genesis
open Beserial Wire Accounts Spec

/-! ## Model -/

/-- genesis.go:57-61 the hardcoded profile IDs -/
inductive Net
  | main
  | test

/-- genesis.go:59-60 `ProfileMain`, `ProfileTest` -/
def Net.id : Net → String
  | .main => "main"
  | .test => "test"

/-- genesis.go:54-55: the embedded block files -/
def Net.blockBin : Net → Bytes
  | .main => mainBlockBin
  | .test => testBlockBin

/-- genesis.go:54-55: the embedded account files -/
def Net.accountsBin : Net → Bytes
  | .main => mainAccountsBin
  | .test => testAccountsBin

/-- The three files of a profile in a directory; `none` for one that cannot be read (or, the toml file, decoded). -/
structure Files where
  config : Option Config
  block : Option Bytes
  accounts : Option Bytes

/-- genesis.go:64-76 `OpenProfile`: `embedded` is what the toml decoder answers for the embedded toml files, `dir` are the
files in the working directory.  (`fs.Sub` of a constant valid path does not fail.) -/
def OpenProfile (embedded : Net → Option Config) (dir : String → Files) (path : String) : Out Profile :=
  if path = "main" then openProfile (embedded .main) (some Net.main.blockBin) (some Net.main.accountsBin)
  else if path = "test" then openProfile (embedded .test) (some Net.test.blockBin) (some Net.test.accountsBin)
  else openProfile (dir path).config (dir path).block (dir path).accounts

/-! ## What is in the files -/

/-- The accounts hash in the header. -/
def Net.root : Net → Hash32
  | .main => mainRoot
  | .test => testRoot

/-- The number of accounts. -/
def Net.count : Net → Nat
  | .main => 1396
  | .test => 100

def Net.rows : Net → List (List Row)
  | .main => mainRows
  | .test => testRows

theorem net_layout (net : Net) : net.accountsBin = accountFile (net.rows.flatten.map Row.entry) := by
  cases net
  · have := main_length
    show mainAccountsBin = _
    rw [main_layout, accountFile, List.length_map]
    show _ = Beserial.Spec.digits 2 mainRows.flatten.length ++ _
    rw [this]; rfl
  · have := test_length
    show testAccountsBin = _
    rw [test_layout, accountFile, List.length_map]
    show _ = Beserial.Spec.digits 2 testRows.flatten.length ++ _
    rw [this]; rfl

theorem net_length (net : Net) : net.rows.flatten.length = net.count := by
  cases net
  · exact main_length
  · exact test_length

theorem net_distinct (net : Net) : (net.rows.flatten.map Row.addr).Nodup := by
  cases net
  · exact main_addrs ▸ (distinct_iff _).mp main_distinct
  · exact test_addrs ▸ (distinct_iff _).mp test_distinct

theorem net_absent (net : Net) : 0 ∉ net.rows.flatten.map Row.addr := by
  cases net
  · exact main_addrs ▸ (absent_iff _ _).mp main_absent
  · exact test_addrs ▸ (absent_iff _ _).mp test_absent

theorem net_sum (net : Net) : (net.rows.flatten.map Row.balance).sum = 252000000000000 := by
  cases net
  · exact main_sum
  · exact test_sum

theorem fit_row {l : List Row} (h : fit (partsOf l) = true) : ∀ r ∈ l, fit r.parts = true := by
  induction l with
  | nil => simp
  | cons r l ih =>
    have := fit_append h
    intro x hx
    rcases List.mem_cons.mp hx with rfl | hx
    · exact this.1
    · exact ih this.2 x hx

theorem net_fit (net : Net) : ∀ r ∈ net.rows.flatten, fit r.parts = true := by
  intro r hr
  obtain ⟨l, hl, hr'⟩ := List.mem_flatten.mp hr
  cases net
  · exact fit_row (main_fit l hl) r hr'
  · exact fit_row (test_fit l hl) r hr'

theorem net_block (net : Net) : ∃ v, UnmarshalFull blockTy blockTy.zero net.blockBin = .ok v ∧
    Block.ofVal v = some ⟨1, net.root, some ⟨addrOf 0, [], []⟩⟩ := by
  cases net
  · exact main_opened
  · exact test_opened

theorem fit_addr {r : Row} (h : fit r.parts = true) : r.addr < 256 ^ 20 := by
  cases r <;> (simp only [Row.parts, fit, Bool.and_eq_true, Nat.ble_eq] at h; simp only [Row.addr]; omega)

theorem fit_balance {r : Row} (h : fit r.parts = true) : (balance r.account).toNat = r.balance := by
  cases r <;>
  · simp only [Row.parts, fit, Bool.and_eq_true, Nat.ble_eq] at h
    simp only [Row.account, balance, Row.balance, UInt64.toNat_ofNat']
    exact Nat.mod_eq_of_lt (by omega)

theorem addrOf_inj {x y : Nat} (hx : x < 256 ^ 20) (hy : y < 256 ^ 20) (h : addrOf x = addrOf y) : x = y :=
  digits_inj hx hy (congrArg Subtype.val h)

theorem addrs_nodup {l : List Row} (hf : ∀ r ∈ l, fit r.parts = true) (hd : (l.map Row.addr).Nodup) :
    (l.map fun r => addrOf r.addr).Nodup := by
  induction l with
  | nil => simp
  | cons r l ih =>
    simp only [List.map_cons, List.nodup_cons] at hd ⊢
    refine ⟨fun hm => hd.1 ?_, ih (fun x hx => hf x (by simp [hx])) hd.2⟩
    obtain ⟨x, hx, he⟩ := List.mem_map.mp hm
    have := addrOf_inj (fit_addr (hf x (by simp [hx]))) (fit_addr (hf r (by simp))) he
    exact this ▸ List.mem_map_of_mem hx

/-! ## Listed accounts -/

theorem listed_absent (l : List (Addr × Option Account)) (old : AMap) (a : Addr) (h : a ∉ l.map (·.1)) : listed l old a = old a := by
  unfold listed
  rw [List.filter_eq_nil_iff.mpr]
  · rfl
  · intro e he hd
    rw [decide_eq_true_eq] at hd
    exact h (List.mem_map.mpr ⟨e, he, hd⟩)

/-- Money written to addresses that had none. -/
theorem total_listed (l : List (Addr × Account)) (old : AMap) (hn : (l.map (·.1)).Nodup)
    (h0 : ∀ e ∈ l, balance (old e.1) = 0) :
    total (listed (l.map fun e => (e.1, some e.2)) old) = total old + (l.map fun e => (balance e.2).toNat).sum := by
  induction l generalizing old with
  | nil => rfl
  | cons e l ih =>
    simp only [List.map_cons, List.nodup_cons] at hn
    rw [List.map_cons, listed_cons]
    have h1 := total_set old e.1 e.2
    rw [h0 e (by simp)] at h1
    have h2 := ih (old.set e.1 e.2) hn.2 (by
      intro x hx
      rw [AMap.set_ne _ _ (by
        intro he
        exact hn.1 (he ▸ List.mem_map_of_mem hx))]
      exact h0 x (by simp [hx]))
    simp only [Option.getD_some, List.map_cons, List.sum_cons]
    rw [h2]
    simp at h1
    omega

theorem total_zero : total (fun _ => .basic ⟨0⟩) = 0 := by
  unfold total
  simp [funds]

/-! ## C112 -/

theorem net_open (embedded : Net → Option Config) (dir : String → Files) (net : Net) :
    OpenProfile embedded dir net.id = openProfile (embedded net) (some net.blockBin) (some net.accountsBin) := by
  cases net <;> rfl

/-- C112. The names "main" and "test" open the built-in profiles, whatever files the working directory has, if their toml file
decodes. A built-in profile lists distinct addresses, each with a basic or a vesting account, and has a block of height 1
mined by the zero address, without transactions and pruned accounts. -/
theorem C112_opens (embedded : Net → Option Config) (dir : String → Files) (net : Net) (conf : Config)
    (hc : embedded net = some conf) :
    ∃ p, OpenProfile embedded dir net.id = .ok p ∧ p.config = conf ∧ p.accounts.length = net.count ∧
      (p.accounts.map (·.1)).Nodup ∧
      (∀ e ∈ p.accounts, ∃ acc, e.2 = some acc ∧ (acc.type = 0 ∨ acc.type = 1)) ∧
      Block.ofVal p.block = some ⟨1, net.root, some ⟨⟨List.replicate 20 0, rfl⟩, [], []⟩⟩ := by
  obtain ⟨v, hv, hb⟩ := net_block net
  refine ⟨⟨conf, v, (net.rows.flatten.map Row.entry).map fun e => (e.1, some e.2)⟩, ?_, rfl, ?_, ?_, ?_, hb⟩
  · rw [net_open, C78_open_iff]
    refine ⟨hc, ⟨_, rfl, hv⟩, net.rows.flatten.map Row.entry, ?_, congrArg some (net_layout net), rfl⟩
    rw [List.length_map, net_length]
    cases net <;> decide
  · simp only [List.length_map]; exact net_length net
  · rw [List.map_map, List.map_map]
    exact addrs_nodup (net_fit net) (net_distinct net)
  · intro e he
    rw [List.map_map] at he
    obtain ⟨r, _, rfl⟩ := List.mem_map.mp he
    exact ⟨_, rfl, by cases r <;> simp [Row.entry, Row.account, Account.type]⟩

/-- So the hypothesis of `C78_no_nil`, `C79_violated` and `C112_supply` is met by all the networks. -/
example (conf : Config) (net : Net) : ∃ p, openProfile (some conf) (some net.blockBin) (some net.accountsBin) = .ok p := by
  obtain ⟨p, h, _⟩ := C112_opens (fun _ => some conf) (fun _ => ⟨none, none, none⟩) net conf rfl
  rw [net_open] at h
  exact ⟨p, h⟩

/-- The profile is the one in the file. -/
theorem net_profile {embedded : Net → Option Config} {dir : String → Files} {net : Net} {p : Profile}
    (h : OpenProfile embedded dir net.id = .ok p) :
    p.accounts = (net.rows.flatten.map Row.entry).map (fun e => (e.1, some e.2)) ∧
      Block.ofVal p.block = some ⟨1, net.root, some ⟨addrOf 0, [], []⟩⟩ := by
  rw [net_open] at h
  obtain ⟨v, hv, hb⟩ := net_block net
  have hc : ∃ conf, embedded net = some conf := ⟨_, ((C78_open_iff _ _ _ _).mp h).1⟩
  obtain ⟨conf, hc⟩ := hc
  have hlen : (net.rows.flatten.map Row.entry).length < 65536 := by
    rw [List.length_map, net_length]; cases net <;> decide
  have h2 := (C78_open_iff (embedded net) (some net.blockBin) (some net.accountsBin)
    ⟨conf, v, (net.rows.flatten.map Row.entry).map fun e => (e.1, some e.2)⟩).mpr
    ⟨hc, ⟨_, rfl, hv⟩, _, hlen, congrArg some (net_layout net), rfl⟩
  rw [h] at h2
  cases h2
  exact ⟨rfl, hb⟩

/-- C112. The accounts of a built-in profile have 2520000000 NIM (counted in hundred thousandths) together: exactly the initial
supply of the emission schedule. -/
theorem C112_supply (embedded : Net → Option Config) (dir : String → Files) (net : Net) (p : Profile)
    (h : OpenProfile embedded dir net.id = .ok p) :
    total (listed p.accounts fun _ => .basic ⟨0⟩) = 252000000000000 ∧ Policy.Spec.supply 0 = 252000000000000 := by
  refine ⟨?_, rfl⟩
  rw [(net_profile h).1, total_listed _ _ (by rw [List.map_map]; exact addrs_nodup (net_fit net) (net_distinct net))
    (fun _ _ => rfl), total_zero, List.map_map, Nat.zero_add, ← net_sum net]
  congr 1
  apply List.map_congr_left
  intro r hr
  exact fit_balance (net_fit net r hr)

/-- The zero address, which mined the genesis blocks. -/
def zeroAddr : Addr := ⟨List.replicate 20 0, rfl⟩

/-- The accounts a built-in profile starts with: the listed ones, and the reward of block 1 for the zero address. -/
def startAccounts (p : Profile) : Addr → Account := fun a =>
  if a = zeroAddr then .basic ⟨440597534⟩ else listed p.accounts (fun _ => .basic ⟨0⟩) a

theorem reward_one : ∃ c, Policy.blockReward Policy.initCache 1 = .ok (440597534, c) := ⟨_, rfl⟩

theorem zero_absent (net : Net) : zeroAddr ∉ ((net.rows.flatten.map Row.entry).map fun e => (e.1, some e.2)).map (·.1) := by
  rw [List.map_map, List.map_map]
  intro hm
  obtain ⟨r, hr, he⟩ := List.mem_map.mp hm
  have := addrOf_inj (fit_addr (net_fit net r hr)) (y := 0) (by decide) he
  exact net_absent net (this ▸ List.mem_map_of_mem hr)

/-- The money right after the genesis block. -/
theorem start_total {embedded : Net → Option Config} {dir : String → Files} {net : Net} {p : Profile}
    (h : OpenProfile embedded dir net.id = .ok p) : total (startAccounts p) = Policy.Spec.supply 1 := by
  have h1 := (C112_supply embedded dir net p h).1
  have h2 : startAccounts p = (AMap.set (listed p.accounts fun _ => .basic ⟨0⟩) zeroAddr (.basic ⟨440597534⟩)) := by
    funext a
    unfold startAccounts
    by_cases ha : a = zeroAddr
    · rw [if_pos ha, ha, AMap.set_same]
    · rw [if_neg ha, AMap.set_ne _ _ ha]
  have h3 := total_set (listed p.accounts fun _ => .basic ⟨0⟩) zeroAddr (.basic ⟨440597534⟩)
  rw [listed_absent _ _ _ (by rw [(net_profile h).1]; exact zero_absent net), h1, ← h2] at h3
  have h4 : Policy.Spec.supply 1 = 252000000000000 + 440597534 := rfl
  rw [h4]
  simpa [balance] using h3

/-- C112. On a fresh node, initialising with a built-in profile succeeds iff the accounts hash in its block is the
Merkle-Patricia root of the listed accounts and the first reward (for the hash function used). Then these are the accounts
and they have what the schedule prescribes at height 1. Otherwise the error is a hash mismatch. -/
theorem C112_init (E : Env) (embedded : Net → Option Config) (dir : String → Files) (net : Net) (p : Profile)
    (h : OpenProfile embedded dir net.id = .ok p) :
    let res := p.initAccounts E newNode
    let good := net.root = Tree.Spec.rootHash E.H fun a =>
      if startAccounts p a = .basic ⟨0⟩ then [] else accountLayout (startAccounts p a)
    (good → res.1 = .ok ()) ∧ (¬ good → res.1 = .err .hashMismatch) ∧
      (res.1 = .ok () → accountOf res.2 = startAccounts p ∧ total (accountOf res.2) = Policy.Spec.supply 1) := by
  intro res good
  obtain ⟨e1, e2⟩ := net_profile h
  obtain ⟨c, hc⟩ := reward_one
  have hm0 : listed p.accounts (fun _ => .basic ⟨0⟩) zeroAddr = .basic ⟨0⟩ :=
    listed_absent _ _ _ (by rw [e1]; exact zero_absent net)
  have hres : res = Genesis.initAccounts E p.accounts ⟨1, net.root, some ⟨zeroAddr, [], []⟩⟩ newNode := by
    show p.initAccounts E newNode = _
    unfold Profile.initAccounts
    rw [e2]; rfl
  have hp := fun hash => C68_plain E p.accounts 1 (by decide) hash zeroAddr _ c hc
  have haft : (fun a => if a = zeroAddr then Account.basic ⟨balance (listed p.accounts (fun _ => .basic ⟨0⟩) zeroAddr) + 440597534⟩
      else listed p.accounts (fun _ => .basic ⟨0⟩) a) = startAccounts p := by
    funext a
    unfold startAccounts
    rw [hm0]
    simp [balance]
  simp only [haft, hm0] at hp
  have hg : good ↔ res.1 = .ok () := by
    rw [hres, (hp net.root).1]
    exact ⟨fun g => ⟨rfl, g⟩, fun g => g.2⟩
  refine ⟨hg.mp, fun hn => ?_, fun hok => ?_⟩
  · -- the push itself succeeds, as it does with the right hash
    have hroot := (hp (Tree.Spec.rootHash E.H fun a =>
      if startAccounts p a = .basic ⟨0⟩ then [] else accountLayout (startAccounts p a))).1.mpr ⟨rfl, rfl⟩
    rw [initAccounts_eq .new] at hroot
    have hsame : ∀ x y : Hash32, Push E ⟨1, x, some ⟨zeroAddr, [], []⟩⟩ = Push E ⟨1, y, some ⟨zeroAddr, [], []⟩⟩ :=
      fun _ _ => rfl
    rw [hsame _ net.root] at hroot
    have hbad : res.1 ≠ .ok () := fun hk => hn (hg.mpr hk)
    rw [hres, initAccounts_eq .new] at hbad ⊢
    rcases hx : Push E ⟨1, net.root, some ⟨zeroAddr, [], []⟩⟩ (putAll E.H p.accounts newNode).2 with ⟨o, n1⟩
    rw [hx] at hroot hbad
    cases o with
    | err e => simp at hroot
    | panic => simp at hroot
    | ok u =>
      simp only [] at hbad ⊢
      split
      · rename_i hq; rw [if_pos hq] at hbad; exact absurd rfl hbad
      · rfl
  · have := (hp net.root).2 (hres ▸ hok)
    rw [hres, this]
    exact ⟨rfl, start_total h⟩

theorem forall₂_holds_unique {entries : List (Option Bytes)} {bs bs' : List Block} (h : List.Forall₂ Holds entries bs)
    (h' : List.Forall₂ Holds entries bs') : bs = bs' := by
  induction h generalizing bs' with
  | nil => cases h'; rfl
  | cons hx _ ih =>
    cases h' with
    | cons hy ht =>
      obtain ⟨buf, v, rfl, hv, hb⟩ := hx
      obtain ⟨buf', v', e, hv', hb'⟩ := hy
      cases e
      rw [hv] at hv'
      cases hv'
      rw [hb] at hb'
      cases hb'
      rw [ih ht]

/-- C77 for the built-in profiles (partial: only basic accounts send, and value plus fee never wraps around; see C77). A replay with a built-in profile
and blocks of heights 2, 3, … that ends well leaves exactly the money that the schedule prescribes at the last height. -/
theorem C77_builtin_partial (E : Env) (net : Net) (conf : Config) (archive : Archive) (b t : Nat) (n' : Node) (blocks : List Block)
    (hr : gimiq E (some conf) (some net.blockBin) (some net.accountsBin) archive newNode = (.ok (b, t), n'))
    (hb : List.Forall₂ Holds (archive.entries.drop 1) blocks) (hh : Consecutive 1 blocks)
    (hbasic : ∀ b ∈ blocks, ∀ body, b.body = some body → ∀ tx ∈ body.txs,
      (tx.getSender E.H).2 = 0 ∧ value tx + fee tx < 2 ^ 64) :
    total (accountOf n') = Policy.Spec.supply (1 + b) := by
  obtain ⟨p, g, n0, blocks', h1, h2, h3, _, h5, h6, rfl, _⟩ := (C69_iff E _ _ _ _ _ _ _).mp hr
  have h1' : OpenProfile (fun _ => some conf) (fun _ => ⟨none, none, none⟩) net.id = .ok p := by rw [net_open]; exact h1
  have hbb : blocks' = blocks := forall₂_holds_unique h5 hb
  subst hbb
  have hi := (C112_init E _ _ net p h1').2.2
  have hinit : p.initAccounts E newNode = (.ok (), n0) := by
    unfold Profile.initAccounts; rw [h2]; exact h3
  rw [hinit] at hi
  have hreach : Reach E n0 := by
    obtain ⟨m0, r1, _, r3⟩ := C68_iff (E := E) .new p.accounts g
    have := ((r3 n0).mp h3).1
    have hq := Reach.push g r1
    rwa [this] at hq
  exact C77_supply_follows_schedule_partial hreach (replayed_chain h6) 1 hh (hi rfl).2 hbasic

/-- Initialising succeeds, for example, if every hash is the one in the header. -/
example (E : Env) (net : Net) (conf : Config) (dir : String → Files) (hE : ∀ bs, E.H bs = net.root) :
    ∃ p, OpenProfile (fun _ => some conf) dir net.id = .ok p ∧ (p.initAccounts E newNode).1 = .ok () ∧
      (gimiq E (some conf) (some net.blockBin) (some net.accountsBin) ⟨[], true⟩ newNode).1 = .ok (0, 0) := by
  obtain ⟨p, h, _⟩ := C112_opens (fun _ => some conf) dir net conf rfl
  have hi := (C112_init E _ _ net p h).1 (by unfold Tree.Spec.rootHash; rw [hE])
  refine ⟨p, h, hi, ?_⟩
  obtain ⟨_, e2⟩ := net_profile h
  have h3 : initAccounts E p.accounts ⟨1, net.root, some ⟨addrOf 0, [], []⟩⟩ newNode = (.ok (), (p.initAccounts E newNode).2) := by
    have : p.initAccounts E newNode = initAccounts E p.accounts ⟨1, net.root, some ⟨addrOf 0, [], []⟩⟩ newNode := by
      unfold Profile.initAccounts; rw [e2]
    rw [← this]; exact Prod.ext hi rfl
  rw [net_open] at h
  have := (C69_iff E (some conf) (some net.blockBin) (some net.accountsBin) ⟨[], true⟩ 0 0 (p.initAccounts E newNode).2).mpr
    ⟨p, _, _, [], h, e2, h3, rfl, by exact List.Forall₂.nil, .nil, rfl, rfl⟩
  rw [this]

end Nimiq.Genesis
