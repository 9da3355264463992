#!/usr/bin/env python3
"""Translate /repo/tests/cache/blocklist.cpp into lean/Verif/Conform/Blocklist.lean.

Mechanical: every mark, fsck, shrink and CHECK/REQUIRE of the file becomes a step with its line
number; a SECTION (or GIVEN/WHEN/THEN) is run with everything before it in the enclosing blocks, as
Catch2 does; `fsck` of the test environment's destructor is the last step.  `CHECK(blist.size() == 0)`
is left out (the field is not in the model)."""
import re,sys
src=open('/repo/tests/cache/blocklist.cpp').read()
src=re.sub(r'/\*.*?\*/',lambda m:'\n'*m.group(0).count('\n'),src,flags=re.S)
src=re.sub(r'//[^\n]*','',src)
ST={'ABSENT':'.absent','READ':'.read','READAHEAD':'.readahead','PINNED':'.pinned','WRITTEN':'.written'}
def expr(e):
    e=e.replace('Dragonstash::CACHE_PAGE_SIZE','4096').replace('initial_capacity','cap').replace('\n',' ')
    e=re.sub(r'\s+',' ',e).strip()
    e=e.replace('<<','<<<').replace('*',' * ')
    return '('+e+')' if re.search(r'\W',e) else e
def state(s): return ST[s.strip().split('::')[-1]]
def cond(c,line):
    c=c.strip()
    m=re.fullmatch(r'blist\.(\w+)\((.*)\)\s*(==|<=|>)\s*(.*)',c,re.S)
    if not m:
        m2=re.fullmatch(r'm_blocklist\.nentries\(\) == 0',c)
        raise SystemExit((line,c))
    f,a,op,r=m.groups()
    if f=='size': return None
    if f=='state': return f'stateIs {line} {expr(a)} {state(r)}'
    if f=='truncate_access':
        x,y=a.split(','); return f'truncIs {line} {expr(x)} {expr(y)} {expr(r)}'
    if f=='blocks': return f'num {line} (fun f => blocks f {state(a)}) (· = {expr(r)})'
    g={'nentries':'nentries','present_blocks':'presentBlocks','capacity':'capacity'}[f]
    o={'==':'=','<=':'≤','>':'>'}[op]
    return f'num {line} {g} (· {o} {expr(r)})'
def parse(i):
    """statements from i until the closing brace"""
    out=[]
    while True:
        while src[i].isspace(): i+=1
        if src[i]=='}': return out,i+1
        line=src.count('\n',0,i)+1
        m=re.compile(r'(SECTION|GIVEN|WHEN|THEN|AND_WHEN|AND_THEN)\s*\("((?:[^"\\]|\\.)*)"\)\s*\{').match(src,i)
        if m:
            b,i=parse(m.end()); out.append(('sec',m.group(2),b,line)); continue
        m=re.compile(r'for \((?:decltype\(initial_capacity\)|std::size_t) i = 0; i < ([^;]*); \+\+i\) \{').match(src,i)
        if m:
            b,i=parse(m.end()); out.append(('for',m.group(1),b,line)); continue
        if src[i]=='{':
            b,i=parse(i+1); out.append(('blk','',b,line)); continue
        j=src.index(';',i); s=src[i:j]; i=j+1
        out.append(('st',re.sub(r'\s+',' ',s).strip(),None,line))
def stmt(s,line):
    if re.match(r'(TestBlocklist env|Dragonstash::Blocklist &blist|TemporaryDirectory|const std::filesystem)',s): return None
    if s=='Dragonstash::Blocklist blist(fname)': return 'reopen'
    if s=='auto initial_capacity = blist.capacity()': return 'let cap ← capacityNow'
    m=re.fullmatch(r'blist\.mark\((.*)\)',s)
    if m:
        a,b,c=m.group(1).split(', '); return f'mark_ {expr(a)} {expr(b)} {state(c)}'
    if s=='blist.fsck()': return 'fsck_'
    if s=='blist.shrink()': return 'shrink_'
    m=re.fullmatch(r'(?:CHECK|REQUIRE)\((.*)\)',s)
    if m: return cond(m.group(1),line)
    raise SystemExit((line,s))
def leaves(body):
    """all linear scripts"""
    secs=[x for x in body if x[0]=='sec']
    if not secs:
        yield '',body; return
    for s in secs:
        pre=[x for x in body[:body.index(s)] if x[0]!='sec']
        post=[x for x in body[body.index(s)+1:] if x[0]!='sec']
        for t,b in leaves(s[2]): yield (s[1]+('. '+t if t else '')),pre+b+post
def emit(b,ind):
    out=[]
    for k,t,x,line in b:
        if k=='st':
            r=stmt(t,line)
            if r: out.append(ind+r)
        elif k=='for': out+= [ind+f'forBelow {expr(t)} fun i => do']+emit(x,ind+'  ')
        elif k=='blk': out+=emit(x,ind)
    return out
L=[]
Big=[]
n=0
for m in re.finditer(r'(?:TEST_CASE|SCENARIO)\(\s*"((?:[^"\\]|\\.)*)"[^)]*\)\s*\{',src):
    body,_=parse(m.end())
    line=src.count('\n',0,m.start())+1
    for t,b in leaves(body):
        n+=1
        st=emit(b,'  ')
        if 'reopen' not in ' '.join(st): st.append('  fsck_')
        L_=Big if 'forBelow (cap' in ' '.join(st) else L
        L_.append(f'/-- tests/cache/blocklist.cpp {line}: {m.group(1)}{". "+t if t else ""} -/')
        L_.append('example : passes fresh (do\n'+'\n'.join(st)+') = true := by decide +kernel\n')
print(n,'tests')
open('/verif/lean/Verif/Conform/Blocklist.lean','w').write('''/-
  The tests of tests/cache/blocklist.cpp on the model of `Blocklist`. Generated by
  tools/gen_conform.py; see Conform/Basic.lean.
-/
import Verif.Blocklist.Model
import Verif.Conform.Basic
namespace Dragonstash.Conform
open Blocklist

abbrev B := T File Unit

def mark_ (s c : Nat) (st : State) : B := fun f => (mark f s c st).map fun g => ((), g)
def fsck_ : B := fun f => (fsck f).map fun g => ((), g)
def shrink_ : B := fun f => (shrink f).map fun g => ((), g)
def stateIs (line b : Nat) (s : State) : B := fun f => do check line (decide ((← stateAt f b) = s)) f
def truncIs (line s c r : Nat) : B := fun f => do check line (decide ((← truncateAccess f s c) = r)) f
def num (line : Nat) (g : File → Nat) (p : Nat → Prop) [DecidablePred p] : B := fun f => check line (decide (p (g f))) f
def capacityNow : T File Nat := fun f => .ok (capacity f, f)
/-- Destruction of the object and opening the file again: only the mapping is lost. -/
def reopen : B := fun f => .ok ((), ensureMapped (ensureUnmapped f))
def forFrom (i : Nat) : Nat → (Nat → B) → B
  | 0, _ => pure ()
  | k + 1, g => do g i; forFrom (i + 1) k g
/-- `for (i = 0; i < n; ++i)`. -/
def forBelow (n : Nat) (g : Nat → B) : B := forFrom 0 n g

'''+'\n'.join(L)+'\nend Dragonstash.Conform\n')

# the tests with long loops need much memory: one module each, built one after the other
for k in range(len(Big)//2):
    prev='Verif.Conform.Blocklist' if k==0 else f'Verif.Conform.BlocklistLoop{k}'
    open(f'/verif/lean/Verif/Conform/BlocklistLoop{k+1}.lean','w').write(f'''/-
  A test of tests/cache/blocklist.cpp which fills more than a page. Generated by tools/gen_conform.py.
-/
import {prev}
namespace Dragonstash.Conform
open Blocklist

'''+Big[2*k]+'\n'+Big[2*k+1]+'\nend Dragonstash.Conform\n')
