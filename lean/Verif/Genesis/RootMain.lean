import Verif.Genesis.RootCheck
import Verif.Genesis.MainFile
/-! # Generated by tools/gen_roots.py: the hashes below the root of the main genesis accounts -/
set_option maxRecDepth 20000
namespace Nimiq.Genesis
open Tree.Fast

/-- The genesis accounts and the reward of block 1. -/
def mainStart : List Row := .b 0 440597534 :: mainRows.flatten

theorem main_sub0 : checkSub 0 mainStart (([],
  0x7051b85c155ec51148d4dda62a66d2dd588368638f43a22a5e460b481bf9120d)) = true := by decide +kernel
theorem main_sub1 : checkSub 1 mainStart (([],
  0x8ca784eab7916ebbda2a5c2a0e6c450c43e02a4d878df570bdac1c1b0b2ad24c)) = true := by decide +kernel
theorem main_sub2 : checkSub 2 mainStart (([],
  0x18adbe7d8d818e1bdf0a1d488ddb7f0b38f5dccb2643f8abccc821c8f923fd9f)) = true := by decide +kernel
theorem main_sub3 : checkSub 3 mainStart (([],
  0x647ee62ecb092ad8598e3f185b7ab01bf34f9dfb4dd8afe25d9f9ff1329b5f62)) = true := by decide +kernel
theorem main_sub4 : checkSub 4 mainStart (([],
  0x9f4e383e222bd4852547fe491c15c9c17d4d955dbf408a0a84a1d61e66d56807)) = true := by decide +kernel
theorem main_sub5 : checkSub 5 mainStart (([],
  0x35b1b9bad7be422f5a4e28677f742b88139d6884fe648c310010a211d65ce556)) = true := by decide +kernel
theorem main_sub6 : checkSub 6 mainStart (([],
  0xdc75ecb4c766c3910fb06628585d1b62fa54feb25481cf3a51a4e72af424b3f7)) = true := by decide +kernel
theorem main_sub7 : checkSub 7 mainStart (([],
  0xa77628382539d9f9d8483d38d6a5a775bf54bc92155f0f472fdc1c20c0a3cf0c)) = true := by decide +kernel
theorem main_sub8 : checkSub 8 mainStart (([],
  0xbdc42979ce5a20ef67c7aa3025351f77538122408a1845934c3bb19c71bbc62c)) = true := by decide +kernel
theorem main_sub9 : checkSub 9 mainStart (([],
  0xd17b8eb2e4969773dd00b3374cf0a486d924fcfb1275cdc770fefc98550d08e3)) = true := by decide +kernel
theorem main_sub10 : checkSub 10 mainStart (([],
  0xc87071062b6a0ffa639b14ad8103e2aaa148436459b423e4e2b6006e71764170)) = true := by decide +kernel
theorem main_sub11 : checkSub 11 mainStart (([],
  0x31a1e13bf6eba24c83b26ba7b54df12ed15986e7c1fd8ac76627163f542c5a55)) = true := by decide +kernel
theorem main_sub12 : checkSub 12 mainStart (([],
  0x87595da2e5643369b32ae737b84bb1fa25a3916618de744695bb0f74b18f870c)) = true := by decide +kernel
theorem main_sub13 : checkSub 13 mainStart (([],
  0xf75cd3b14c34c30bb95b2af572e825942fa0ed59e8e43da3cb4b70230424b84b)) = true := by decide +kernel
theorem main_sub14 : checkSub 14 mainStart (([],
  0x5a10b941872045d8991756fc0f41041d6cda92f41a3c03a3d27a5bde6db5306f)) = true := by decide +kernel
theorem main_sub15 : checkSub 15 mainStart (([],
  0x9c5b224d1ee2525a3d2cc1c69c68ba9c077a145aac726666fa557ee3c2d64ed4)) = true := by decide +kernel

def mainSubs : List (List Nat × Nat) := [
  ([],
  0x7051b85c155ec51148d4dda62a66d2dd588368638f43a22a5e460b481bf9120d),
  ([],
  0x8ca784eab7916ebbda2a5c2a0e6c450c43e02a4d878df570bdac1c1b0b2ad24c),
  ([],
  0x18adbe7d8d818e1bdf0a1d488ddb7f0b38f5dccb2643f8abccc821c8f923fd9f),
  ([],
  0x647ee62ecb092ad8598e3f185b7ab01bf34f9dfb4dd8afe25d9f9ff1329b5f62),
  ([],
  0x9f4e383e222bd4852547fe491c15c9c17d4d955dbf408a0a84a1d61e66d56807),
  ([],
  0x35b1b9bad7be422f5a4e28677f742b88139d6884fe648c310010a211d65ce556),
  ([],
  0xdc75ecb4c766c3910fb06628585d1b62fa54feb25481cf3a51a4e72af424b3f7),
  ([],
  0xa77628382539d9f9d8483d38d6a5a775bf54bc92155f0f472fdc1c20c0a3cf0c),
  ([],
  0xbdc42979ce5a20ef67c7aa3025351f77538122408a1845934c3bb19c71bbc62c),
  ([],
  0xd17b8eb2e4969773dd00b3374cf0a486d924fcfb1275cdc770fefc98550d08e3),
  ([],
  0xc87071062b6a0ffa639b14ad8103e2aaa148436459b423e4e2b6006e71764170),
  ([],
  0x31a1e13bf6eba24c83b26ba7b54df12ed15986e7c1fd8ac76627163f542c5a55),
  ([],
  0x87595da2e5643369b32ae737b84bb1fa25a3916618de744695bb0f74b18f870c),
  ([],
  0xf75cd3b14c34c30bb95b2af572e825942fa0ed59e8e43da3cb4b70230424b84b),
  ([],
  0x5a10b941872045d8991756fc0f41041d6cda92f41a3c03a3d27a5bde6db5306f),
  ([],
  0x9c5b224d1ee2525a3d2cc1c69c68ba9c077a145aac726666fa557ee3c2d64ed4)]

theorem main_subs : ∀ i (h : i < mainSubs.length), checkSub i mainStart (mainSubs[i]'h) = true := by
  intro i h
  match i, h with
  | 0, _ => exact main_sub0
  | 1, _ => exact main_sub1
  | 2, _ => exact main_sub2
  | 3, _ => exact main_sub3
  | 4, _ => exact main_sub4
  | 5, _ => exact main_sub5
  | 6, _ => exact main_sub6
  | 7, _ => exact main_sub7
  | 8, _ => exact main_sub8
  | 9, _ => exact main_sub9
  | 10, _ => exact main_sub10
  | 11, _ => exact main_sub11
  | 12, _ => exact main_sub12
  | 13, _ => exact main_sub13
  | 14, _ => exact main_sub14
  | 15, _ => exact main_sub15
  | n + 16, h => exact absurd (show n + 16 < 16 from h) (by omega)

theorem main_top : checkRoot mainSubs
  0x1fefd44f1fa97185fda21e957545c97dc7643fa7e4efdd86e0aa4244d1e0bc5c = true := by decide +kernel

theorem main_solid : allSolid mainStart = true := by decide +kernel

end Nimiq.Genesis
