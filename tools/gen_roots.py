#!/usr/bin/env python3
"""Generates lean/Verif/Genesis/RootTest.lean and RootMain.lean: the hashes of the 16 subtrees below the root of the genesis
account trees in /repo.  The kernel checks them."""
import hashlib, os, struct
REPO = os.environ.get('REPO', '/repo')
OUT = os.path.join(os.path.dirname(os.path.abspath(__file__)), '../lean/Verif/Genesis/')
H = lambda b: hashlib.blake2b(b, digest_size=32).digest()

def entries(name):
    d = open(f'{REPO}/genesis/files/{name}.accounts.bin', 'rb').read()
    n, = struct.unpack('>H', d[:2]); i = 2; out = {}
    for _ in range(n):
        a = d[i:i+20]; i += 20
        k = 9 if d[i] == 0 else 53
        out[a.hex()] = d[i:i+k]; i += k
    assert i == len(d)
    out['00' * 20] = b'\0' + struct.pack('>Q', 440597534)
    return out

def enc(path, kids):
    s = bytes([0, len(path)]) + path.encode() + bytes([len(kids)])
    for suf, h in kids:
        s += bytes([len(suf)]) + suf.encode() + h
    return s

def top(path, es):
    if not es: return None
    if len(es) == 1:
        (a, v), = es.items()
        return a[len(path):], H(bytes([255, 40]) + a.encode() + v)
    kids = []
    for c in '0123456789abcdef':
        r = top(path + c, {a: v for a, v in es.items() if a.startswith(path + c)})
        if r: kids.append((c + r[0], r[1]))
    if len(kids) == 1: return kids[0]
    return '', H(enc(path, kids))

for name in ('test', 'main'):
    es = entries(name); kids = []
    cap = name.capitalize()
    f = open(f'{OUT}Root{cap}.lean', 'w')
    f.write(f'import Verif.Genesis.RootCheck\nimport Verif.Genesis.{cap}File\n'
            f'/-! # Generated by tools/gen_roots.py: the hashes below the root of the {name} genesis accounts -/\n'
            'set_option maxRecDepth 20000\nnamespace Nimiq.Genesis\nopen Tree.Fast\n\n'
            f'/-- The genesis accounts and the reward of block 1. -/\ndef {name}Start : List Row := .b 0 440597534 :: {name}Rows.flatten\n\n')
    subs = []
    for i, c in enumerate('0123456789abcdef'):
        r = top(c, {a: v for a, v in es.items() if a.startswith(c)})
        assert r
        kids.append((c + r[0], r[1]))
        nib = '[' + ', '.join(str(int(x, 16)) for x in r[0]) + ']'
        subs.append(f'({nib},\n  0x{r[1].hex()})')
        f.write(f'theorem {name}_sub{i} : checkSub {i} {name}Start ({subs[-1]}) = true := by decide +kernel\n')
    f.write(f'\ndef {name}Subs : List (List Nat × Nat) := [\n  ' + ',\n  '.join(subs) + ']\n\n')
    f.write(f'theorem {name}_subs : ∀ i (h : i < {name}Subs.length), checkSub i {name}Start ({name}Subs[i]\'h) = true := by\n'
            '  intro i h\n  match i, h with\n' + ''.join(f'  | {i}, _ => exact {name}_sub{i}\n' for i in range(16)) +
            f'  | n + 16, h => exact absurd (show n + 16 < 16 from h) (by omega)\n')
    f.write(f'\ntheorem {name}_top : checkRoot {name}Subs\n  0x{H(enc("", kids)).hex()} = true := by decide +kernel\n\n')
    f.write(f'theorem {name}_solid : allSolid {name}Start = true := by decide +kernel\n\nend Nimiq.Genesis\n')
    print(name, H(enc('', kids)).hex())
