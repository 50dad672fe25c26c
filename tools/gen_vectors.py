#!/usr/bin/env python3
"""Writes the literals of lean/Verif/Fixtures.lean: the hex blocks of the unit tests of /repo."""
import re
src = open('/repo/src/test_support.rs').read()
blocks = [re.sub(r'\s', '', h) for h in re.findall(r'hex!\("([0-9a-f\s]*)"\)', src)]
sym = open('/repo/src/symlink.rs').read()
symb = re.findall(r'\("(Qm\w+)", &hex!\("([0-9a-f]*)"\)\)', sym)
dirp = re.search(r'let payload = hex!\("(12330a[0-9a-f]*)"\)', open('/repo/src/dir.rs').read()).group(1)
shard = re.search(r'const DIR: &\[u8\] = &hex!\("([0-9a-f]*)"\)', open('/repo/src/dir/sharded_lookup.rs').read()).group(1)
tar = re.search(r'hex!\("(122b0a2212203822[0-9a-f]*)"\)', open('/repo/src/pb.rs').read()).group(1)
out = ['/-', 'Literals of the unit tests of `/repo`, written by `/verif/tools/gen_vectors.py`.', '-/', 'namespace Verif.Vectors', '']
def lst(name, doc, xs):
    out.append(f'/-- {doc} -/')
    out.append(f'def {name} : List String := [')
    out.append(',\n'.join(f'  "{x}"' for x in xs) + ']')
    out.append('')
def one(name, doc, x):
    out.append(f'/-- {doc} -/')
    out.append(f'def {name} : String :=\n  "{x}"')
    out.append('')
lst('fixtureHex', '`FakeBlockstore::with_fixtures`, `src/test_support.rs:53-125`.', blocks)
lst('symlinkHex', 'The blocks of `walking_symlink_containing_tree`, `src/symlink.rs:133-138`.', [b for _, b in symb])
lst('symlinkNames', 'The Cids of these blocks as given there.', [a for a, _ in symb])
one('plainHex', 'The block of `resolve_paths_from_plain_dagpb`, `src/dir.rs:223`.', dirp)
one('shardHex', '`DIR`, `src/dir/sharded_lookup.rs:344`.', shard)
one('tarHex', 'The block of `linux_tarxz_range_links`, `src/pb.rs:228`.', tar)
out.append('end Verif.Vectors')
open('/verif/lean/Verif/Fixtures.lean', 'w').write('\n'.join(out) + '\n')
print(len(blocks), len(symb))
