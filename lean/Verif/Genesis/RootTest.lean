import Verif.Genesis.RootCheck
import Verif.Genesis.TestFile
/-! # Generated by tools/gen_roots.py: the hashes below the root of the test genesis accounts -/
set_option maxRecDepth 20000
namespace Nimiq.Genesis
open Tree.Fast

/-- The genesis accounts and the reward of block 1. -/
def testStart : List Row := .b 0 440597534 :: testRows.flatten

theorem test_sub0 : checkSub 0 testStart (([],
  0x43013f31c7e07b182ae145526949715a185ccf163f6ed68b926a453a84d15446)) = true := by decide +kernel
theorem test_sub1 : checkSub 1 testStart (([],
  0x50971dcb136c6a45fa18cb0153a8d584bad0dfeeb9a88205506c0fda3f0321dd)) = true := by decide +kernel
theorem test_sub2 : checkSub 2 testStart (([],
  0xb0f31ef19ec4d3aac4bdd67f7e03a43a1a10790bfec1f3320d24fd053456ec61)) = true := by decide +kernel
theorem test_sub3 : checkSub 3 testStart (([],
  0xe3330977632f432bb14c6d06c707f6218bc86a9a3561f33937e8aa83ca14fc0a)) = true := by decide +kernel
theorem test_sub4 : checkSub 4 testStart (([],
  0xb967e570559717a3c6d33bbd451aa34f15dd50f31487190e9dbb69dd59623a5c)) = true := by decide +kernel
theorem test_sub5 : checkSub 5 testStart (([],
  0xc76a6ad529cf7c3252a8ac1f851aab5d081b24cd0a99b166e945f219f83bda8b)) = true := by decide +kernel
theorem test_sub6 : checkSub 6 testStart (([],
  0x98d61853d5fd5b607b03853294a940fefc96a3cbe2a8b334b1d4343dc2225312)) = true := by decide +kernel
theorem test_sub7 : checkSub 7 testStart (([],
  0x1b9ada58b8052733de2b40dfe9d047c5c7de6f1d5726d78b6353a5f70f09397a)) = true := by decide +kernel
theorem test_sub8 : checkSub 8 testStart (([],
  0xa75701f0b59e4acea37d641926b221b8714d7b2c81a5b98eff82f97fcec3d4c6)) = true := by decide +kernel
theorem test_sub9 : checkSub 9 testStart (([],
  0x729fc4f48ae11dfd8c3d419cf72eb7864601218eb371c21287160ec21fbf2235)) = true := by decide +kernel
theorem test_sub10 : checkSub 10 testStart (([],
  0xa9c947dc5fea7719c5016e99a0c572877a80b3dc026f5b8cf885506e14cbe615)) = true := by decide +kernel
theorem test_sub11 : checkSub 11 testStart (([],
  0x8be3f1f1f8977eeeb7b9cdd975acfadf71245801e2f0a34965f4a7d7e352f217)) = true := by decide +kernel
theorem test_sub12 : checkSub 12 testStart (([],
  0xfcb6b98d7e330aaec95d668f65feb5e709b44fc4862ec3bea7f2a4fb267730f7)) = true := by decide +kernel
theorem test_sub13 : checkSub 13 testStart (([],
  0x0655b33890552afa439e849095ac56a222ec9fa3af37cf8ee89903ec830b25a0)) = true := by decide +kernel
theorem test_sub14 : checkSub 14 testStart (([],
  0x10a67d2467da33e309bd178aa6df1391f97f9ad35df90869161a007906853ab1)) = true := by decide +kernel
theorem test_sub15 : checkSub 15 testStart (([],
  0x338dfc1f2961906e03f3d229f4dfeeccd2a7bffc5d8df5668a4320f7a37696b5)) = true := by decide +kernel

def testSubs : List (List Nat × Nat) := [
  ([],
  0x43013f31c7e07b182ae145526949715a185ccf163f6ed68b926a453a84d15446),
  ([],
  0x50971dcb136c6a45fa18cb0153a8d584bad0dfeeb9a88205506c0fda3f0321dd),
  ([],
  0xb0f31ef19ec4d3aac4bdd67f7e03a43a1a10790bfec1f3320d24fd053456ec61),
  ([],
  0xe3330977632f432bb14c6d06c707f6218bc86a9a3561f33937e8aa83ca14fc0a),
  ([],
  0xb967e570559717a3c6d33bbd451aa34f15dd50f31487190e9dbb69dd59623a5c),
  ([],
  0xc76a6ad529cf7c3252a8ac1f851aab5d081b24cd0a99b166e945f219f83bda8b),
  ([],
  0x98d61853d5fd5b607b03853294a940fefc96a3cbe2a8b334b1d4343dc2225312),
  ([],
  0x1b9ada58b8052733de2b40dfe9d047c5c7de6f1d5726d78b6353a5f70f09397a),
  ([],
  0xa75701f0b59e4acea37d641926b221b8714d7b2c81a5b98eff82f97fcec3d4c6),
  ([],
  0x729fc4f48ae11dfd8c3d419cf72eb7864601218eb371c21287160ec21fbf2235),
  ([],
  0xa9c947dc5fea7719c5016e99a0c572877a80b3dc026f5b8cf885506e14cbe615),
  ([],
  0x8be3f1f1f8977eeeb7b9cdd975acfadf71245801e2f0a34965f4a7d7e352f217),
  ([],
  0xfcb6b98d7e330aaec95d668f65feb5e709b44fc4862ec3bea7f2a4fb267730f7),
  ([],
  0x0655b33890552afa439e849095ac56a222ec9fa3af37cf8ee89903ec830b25a0),
  ([],
  0x10a67d2467da33e309bd178aa6df1391f97f9ad35df90869161a007906853ab1),
  ([],
  0x338dfc1f2961906e03f3d229f4dfeeccd2a7bffc5d8df5668a4320f7a37696b5)]

theorem test_subs : ∀ i (h : i < testSubs.length), checkSub i testStart (testSubs[i]'h) = true := by
  intro i h
  match i, h with
  | 0, _ => exact test_sub0
  | 1, _ => exact test_sub1
  | 2, _ => exact test_sub2
  | 3, _ => exact test_sub3
  | 4, _ => exact test_sub4
  | 5, _ => exact test_sub5
  | 6, _ => exact test_sub6
  | 7, _ => exact test_sub7
  | 8, _ => exact test_sub8
  | 9, _ => exact test_sub9
  | 10, _ => exact test_sub10
  | 11, _ => exact test_sub11
  | 12, _ => exact test_sub12
  | 13, _ => exact test_sub13
  | 14, _ => exact test_sub14
  | 15, _ => exact test_sub15
  | n + 16, h => exact absurd (show n + 16 < 16 from h) (by omega)

theorem test_top : checkRoot testSubs
  0x2e02da3d162e20fa982029dbde9cc20f6b431ab05df1764f34af4c62a4f2b33f = true := by decide +kernel

theorem test_solid : allSolid testStart = true := by decide +kernel

end Nimiq.Genesis
