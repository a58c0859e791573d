import Verif.Genesis.RootTest
import Verif.Genesis.RootMain
import Verif.Genesis.Embedded
/-!
# C123: the built-in profiles with Blake2b-256
-/
namespace Nimiq.Genesis
open Beserial Wire Accounts Spec Tree.Fast

/-- The rows of a profile and of the first reward. -/
def Net.start : Net → List Row
  | .main => mainStart
  | .test => testStart

theorem net_start (net : Net) : net.start = .b 0 440597534 :: net.rows.flatten := by cases net <;> rfl

theorem net_solid (net : Net) : allSolid net.start = true := by
  cases net
  · exact main_solid
  · exact test_solid

theorem net_number (net : Net) : toHash (Blake.fastSum (rootMsg (net.start.map Row.leaf))) = net.root := by
  cases net
  · exact root_of rfl main_subs main_top
  · exact root_of rfl test_subs test_top

theorem listed_mem (l : List (Addr × Option Account)) (old : AMap) (hn : (l.map (·.1)).Nodup) (a : Addr) (acc : Account)
    (h : (a, some acc) ∈ l) : listed l old a = acc := by
  induction l generalizing old with
  | nil => simp at h
  | cons e l ih =>
    simp only [List.map_cons, List.nodup_cons] at hn
    rw [listed_cons]
    rcases List.mem_cons.mp h with rfl | h
    · rw [listed_absent _ _ _ hn.1, AMap.set_same]; rfl
    · exact ih _ hn.2 h

theorem addrOf_zero : addrOf 0 = zeroAddr := Subtype.ext (by decide)

theorem start_fit (net : Net) : ∀ r ∈ net.start, fit r.parts = true := by
  rw [net_start]
  intro r hr
  rcases List.mem_cons.mp hr with rfl | hr
  · decide
  · exact net_fit net r hr

theorem start_nodup (net : Net) : (net.start.map Row.addr).Nodup := by
  rw [net_start, List.map_cons, List.nodup_cons]
  exact ⟨net_absent net, net_distinct net⟩

/-- What the rows say is what the node starts with. -/
theorem start_row {embedded : Net → Option Config} {dir : String → Files} {net : Net} {p : Profile}
    (h : OpenProfile embedded dir net.id = .ok p) (r : Row) (hr : r ∈ net.start) :
    startAccounts p (addrOf r.addr) = r.account := by
  have hz := zero_absent net
  obtain ⟨e1, _⟩ := net_profile h
  rw [net_start] at hr
  unfold startAccounts
  rcases List.mem_cons.mp hr with rfl | hr
  · exact if_pos addrOf_zero
  · have hm : (addrOf r.addr, some r.account) ∈ p.accounts := by
      rw [e1, List.map_map]
      exact List.mem_map.mpr ⟨r, hr, rfl⟩
    rw [if_neg, listed_mem _ _ _ _ _ hm]
    · rw [e1, List.map_map, List.map_map]
      exact addrs_nodup (net_fit net) (net_distinct net)
    · intro he
      apply hz
      rw [← e1, ← he]
      exact List.mem_map.mpr ⟨_, hm, rfl⟩

theorem start_other {embedded : Net → Option Config} {dir : String → Files} {net : Net} {p : Profile}
    (h : OpenProfile embedded dir net.id = .ok p) (a : Addr) (ha : ∀ r ∈ net.start, addrOf r.addr ≠ a) :
    startAccounts p a = .basic ⟨0⟩ := by
  obtain ⟨e1, _⟩ := net_profile h
  rw [net_start] at ha
  unfold startAccounts
  rw [if_neg (fun hz => ha (.b 0 440597534) (by simp) (addrOf_zero.trans hz.symm)), listed_absent]
  rw [e1, List.map_map, List.map_map]
  intro hm
  obtain ⟨r, hr, rfl⟩ := List.mem_map.mp hm
  exact ha r (by simp [hr]) rfl

/-- C123. The accounts hash in the block of a built-in profile is the Merkle-Patricia root, with Blake2b-256, of its accounts and
the first reward. -/
theorem C123_root (embedded : Net → Option Config) (dir : String → Files) (net : Net) (p : Profile)
    (h : OpenProfile embedded dir net.id = .ok p) :
    net.root = Tree.Spec.rootHash Blake.hash fun a =>
      if startAccounts p a = .basic ⟨0⟩ then [] else accountLayout (startAccounts p a) := by
  rw [rows_root (start_fit net) (start_nodup net) (fun r hr => fit_addr (start_fit net r hr)), net_number]
  · intro r hr
    rw [start_row h r hr, if_neg (solid_ne (start_fit net r hr) (allSolid_mem (net_solid net) r hr))]
  · intro a ha
    rw [start_other h a ha, if_pos rfl]

/-- C123. With Blake2b-256 a fresh node initialises with a built-in profile, without any further condition; the accounts are
then the listed ones and the first reward, the state hash is the one in the block, and the money is what the schedule
prescribes at height 1. -/
theorem C123_init (E : Env) (hH : E.H = Blake.hash) (embedded : Net → Option Config) (dir : String → Files) (net : Net)
    (conf : Config) (hc : embedded net = some conf) :
    ∃ p n, OpenProfile embedded dir net.id = .ok p ∧ p.initAccounts E newNode = (.ok (), n) ∧ accountOf n = startAccounts p ∧
      (Node.hash E.H n).1 = .ok net.root ∧ total (accountOf n) = Policy.Spec.supply 1 := by
  obtain ⟨p, h, _⟩ := C112_opens embedded dir net conf hc
  obtain ⟨h1, _, h3⟩ := C112_init E embedded dir net p h
  have hok := h1 (by rw [hH]; exact C123_root embedded dir net p h)
  obtain ⟨e1, e2⟩ := net_profile h
  refine ⟨p, (p.initAccounts E newNode).2, h, Prod.ext hok rfl, (h3 hok).1, ?_, (h3 hok).2⟩
  have hinit : initAccounts E p.accounts ⟨1, net.root, some ⟨addrOf 0, [], []⟩⟩ newNode = (.ok (), (p.initAccounts E newNode).2) := by
    have : p.initAccounts E newNode = initAccounts E p.accounts ⟨1, net.root, some ⟨addrOf 0, [], []⟩⟩ newNode := by
      unfold Profile.initAccounts; rw [e2]
    rw [← this]; exact Prod.ext hok rfl
  obtain ⟨n0, g1, _, g3⟩ := C68_iff (E := E) .new p.accounts ⟨1, net.root, some ⟨addrOf 0, [], []⟩⟩
  exact ((g3 _).mp hinit).2

/-- C123. With Blake2b-256 the replay program with a built-in profile ends normally iff the archive ends properly and its entries
except the first hold blocks that push one after the other on the genesis accounts, each leaving the state hash of its header. -/
theorem C123_replay (E : Env) (hH : E.H = Blake.hash) (net : Net) (conf : Config) :
    ∃ p n0, openProfile (some conf) (some net.blockBin) (some net.accountsBin) = .ok p ∧ accountOf n0 = startAccounts p ∧
      ∀ (archive : Archive) (b t : Nat) (n' : Node),
        gimiq E (some conf) (some net.blockBin) (some net.accountsBin) archive newNode = (.ok (b, t), n') ↔
          ∃ blocks, archive.clean = true ∧ List.Forall₂ Holds (archive.entries.drop 1) blocks ∧ Replayed E n0 blocks n' ∧
            b = blocks.length ∧ t = (blocks.map txCount).sum := by
  obtain ⟨p, n0, h, hi, ha, _⟩ := C123_init E hH (fun _ => some conf) (fun _ => ⟨none, none, none⟩) net conf rfl
  obtain ⟨_, e2⟩ := net_profile h
  rw [net_open] at h
  refine ⟨p, n0, h, ha, fun archive b t n' => ?_⟩
  rw [C69_iff]
  unfold Profile.initAccounts at hi
  rw [e2] at hi
  simp only [] at hi
  constructor
  · rintro ⟨p', g, n1, blocks, h1, h2, h3, h4⟩
    rw [h] at h1
    cases h1
    rw [e2] at h2
    cases h2
    rw [hi] at h3
    cases h3
    exact ⟨blocks, h4⟩
  · rintro ⟨blocks, h4⟩
    exact ⟨p, _, n0, blocks, h, e2, hi, h4⟩

/-- The `genesis_hash` in genesis/files/main.toml:28 and genesis/files/test.toml:9. -/
def Net.genesisHash : Net → Nat
  | .main => 0x264aaf8a4f9828a76c550635da078eb466306a189fcc03710bee9f649c869d12
  | .test => 0x1fc28119e35b1418713218192012c7eda9e1d6d142ce8138a313366bd6068300

theorem main_header : beqList (Blake.fastSum ((mainBlockBin.take 146).map (·.toNat))) (numerals 256 32 Net.main.genesisHash) = true := by
  decide +kernel
theorem test_header : beqList (Blake.fastSum ((testBlockBin.take 146).map (·.toNat))) (numerals 256 32 Net.test.genesisHash) = true := by
  decide +kernel

/-- C123. The genesis hash that the toml file of a built-in profile has is the Blake2b-256 digest of the header in its block file. -/
theorem C123_header (net : Net) : (Blake.hash (net.blockBin.take 146)).val = Beserial.Spec.digits 32 net.genesisHash := by
  have key : ∀ b h, beqList (Blake.fastSum (b.map (·.toNat))) (numerals 256 32 h) = true → Blake.hash b = hashOf h := by
    intro b h hb
    rw [hash_eq, beqList_eq hb, toHash_numerals]
  cases net
  · exact congrArg Subtype.val (key _ _ main_header)
  · exact congrArg Subtype.val (key _ _ test_header)

/-- The hypothesis about the hash function is met, and the program ends normally on an empty archive. -/
example (pick : (l : List Addr) → l ≠ [] → { a : Addr // a ∈ l }) (f : ℚ → UInt64) (net : Net) (conf : Config) :
    (gimiq ⟨Blake.hash, pick, f⟩ (some conf) (some net.blockBin) (some net.accountsBin) ⟨[], true⟩ newNode).1 = .ok (0, 0) := by
  obtain ⟨p, n0, _, _, h⟩ := C123_replay ⟨Blake.hash, pick, f⟩ rfl net conf
  rw [(h ⟨[], true⟩ 0 0 n0).mpr ⟨[], rfl, .nil, .nil, rfl, rfl⟩]

end Nimiq.Genesis
