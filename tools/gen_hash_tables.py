#!/usr/bin/env python3
"""Transcribes the literal 256-entry `dword_hashs` tables of flat_map_group15.hpp and
flat_map_group16.hpp into lean/Verif/HashTables.lean."""
import re, os
ROOT=os.path.dirname(os.path.dirname(os.path.abspath(__file__)))
def table(path):
    s=open(path).read()
    body=s[s.index("dword_hashs[] = {"):]
    body=body[body.index("{")+1:body.index("};")]
    body=re.sub(r"//[^\n]*","",body)
    out=[]
    for tok in body.replace("\n"," ").split(","):
        tok=tok.strip()
        if not tok: continue
        if tok in("kEmptyHash32",): out.append("0x08080808")
        elif tok=="kSentinelHash32": out.append("0x09090909")
        else: out.append(tok.rstrip("u"))
    assert len(out)==256,len(out)
    return out
def emit(name,doc,t):
    rows=["  "+", ".join(t[i:i+8]) for i in range(0,256,8)]
    return "/-- %s -/\ndef %s : List Nat := [\n%s]\n"%(doc,name,",\n".join(rows))
h="/repo/src/jstd/hashmap/"
src="""/-
Literal transcription of the two `dword_hashs` lookup tables.
Generated by tools/gen_hash_tables.py from the text of the sources.
-/

namespace Verif

"""
src+=emit("dwordHashs15","`dword_hashs` of `group15_meta_ctrl::repeated_hash` (flat_map_group15.hpp:89-160), with `kEmptyHash32 = 0x08080808`\nand `kSentinelHash32 = 0x09090909` (lines 80-83) substituted.",table(h+"flat_map_group15.hpp"))+"\n"
src+=emit("dwordHashs16","`dword_hashs` of `group16_meta_ctrl::repeated_hash` (flat_map_group16.hpp:88-158), with `kEmptyHash32 = 0x08080808`\n(line 80) substituted.",table(h+"flat_map_group16.hpp"))
src+="\nend Verif\n"
open(ROOT+"/lean/Verif/HashTables.lean","w").write(src)
