#!/usr/bin/env python3
"""Builds the LALR(1) tables of /repo/pylib/uxml/uxpath/parserules.py the way PLY (ply.yacc) does and prints them
as lean/Verif/Model/XTables.lean.  Usage: python3 tools/lalr.py > lean/Verif/Model/XTables.lean
With -p: lean/Verif/Lemmas/XPaths.lean instead; with -v: the automaton and the conflicts."""
import re,sys
sys.setrecursionlimit(10000)
# grammar from parserules.py, productions in file order (PLY: by line number)
src=open('/repo/pylib/uxml/uxpath/parserules.py').read()
prods=[]  # (lhs, rhs list, prec name or None, func)
for m in re.finditer(r'def (p_\w+)\(p\):\s*(?:#[^\n]*\n\s*)?"""(.*?)"""',src,re.S):
    if m.group(1)=='p_error': continue
    lhs=None
    for line in m.group(2).split('\n'):
        line=line.strip()
        if not line: continue
        if line[0]=='|': rhs=line[1:].split()
        else:
            lhs,r=line.split(':',1); lhs=lhs.strip(); rhs=r.split()
        pr=None
        if '%prec' in rhs:
            i=rhs.index('%prec'); pr=rhs[i+1]; rhs=rhs[:i]
        prods.append((lhs,rhs,pr,m.group(1)))
start=prods[0][0]
P=[("S'",[start],None,None)]+prods
NT={p[0] for p in P}
T=[]
for p in P:
    for s in p[1]:
        if s not in NT and s not in T: T.append(s)
precdef=[('left','LOGICAL_OP'),('left','EQUAL_OP'),('left','REL_OP'),('left','PLUS_OP','MINUS_OP'),('left','MULT_OP','DIVMOD_OP'),('right','UMINUS_OP'),('left','UNION_OP')]
PREC={}
for i,e in enumerate(precdef,1):
    for t in e[1:]: PREC[t]=(e[0],i)
def pprec(p):
    if p[2]: return PREC[p[2]]
    for s in reversed(p[1]):
        if s not in NT: return PREC.get(s,('right',0))
    return ('right',0)
# FIRST (no epsilon)
assert all(p[1] for p in P)
first={t:{t} for t in T}; first['$end']={'$end'}
for n in NT: first[n]=set()
ch=True
while ch:
    ch=False
    for l,r,_,_ in P:
        a=first[r[0]]-first[l]
        if a: first[l]|=a; ch=True
# LR0
def clos(I):
    I=list(I); seen=set(I)
    for (pi,d) in I:
        r=P[pi][1]
        if d<len(r) and r[d] in NT:
            for qi,q in enumerate(P):
                if q[0]==r[d] and (qi,0) not in seen: seen.add((qi,0)); I.append((qi,0))
    return I
def goto(I,X):
    return frozenset((pi,d+1) for pi,d in I if d<len(P[pi][1]) and P[pi][1][d]==X)
kern=[frozenset([(0,0)])]; idx={kern[0]:0}; trans={}
for k in kern:
    C=clos(k)
    syms=[]
    for pi,d in C:
        r=P[pi][1]
        if d<len(r) and r[d] not in syms: syms.append(r[d])
    for X in syms:
        g=goto(C,X)
        if g not in idx: idx[g]=len(kern); kern.append(g)
        trans[(idx[k],X)]=idx[g]
N=len(kern)
# LALR lookaheads: propagate LR(1) items merged
LA={(s,it):set() for s in range(N) for it in clos(kern[s])}
LA[(0,(0,0))].add('$end')
ch=True
while ch:
    ch=False
    for s in range(N):
        for (pi,d) in clos(kern[s]):
            la=LA[(s,(pi,d))]
            r=P[pi][1]
            if d<len(r):
                X=r[d]
                t=trans[(s,X)]
                tgt=LA[(t,(pi,d+1))]
                if not la<=tgt: tgt|=la; ch=True
                if X in NT:
                    f=first[r[d+1]] if d+1<len(r) else la
                    for qi,q in enumerate(P):
                        if q[0]==X:
                            u=LA[(s,(qi,0))]
                            if not f<=u: u|=f; ch=True
lines={}
action=[{} for _ in range(N)]; conf=[]
for s in range(N):
    st=action[s]; stp={}
    for (pi,d) in clos(kern[s]):
        p=P[pi]
        if d==len(p[1]):
            if pi==0: st['$end']=0; stp['$end']=pi
            else:
                for a in sorted(LA[(s,(pi,d))]):
                    r=st.get(a)
                    if r is not None:
                        if r>0:
                            sprec,sl=PREC.get(a,('right',0)); rprec,rl=pprec(p)
                            if sl<rl or (sl==rl and rprec=='left'):
                                st[a]=-pi; stp[a]=pi; conf.append((s,a,'SR reduce',pi, sl==0 and rl==0))
                            else: conf.append((s,a,'SR shift',pi,sl==rl==0))
                        elif r<0:
                            if -r>pi: st[a]=-pi; stp[a]=pi   # file order = production order
                            conf.append((s,a,'RR',-r,pi,'chosen',st[a]))
                        else: raise Exception
                    else: st[a]=-pi; stp[a]=pi
        else:
            a=p[1][d]
            if a in NT: continue
            j=trans[(s,a)]
            r=st.get(a)
            if r is not None:
                if r>0: assert r==j
                elif r<0:
                    sprec,sl=PREC.get(a,('right',0)); rprec,rl=pprec(P[stp[a]])
                    if sl>rl or (sl==rl and rprec=='right'):
                        conf.append((s,a,'RS shift',stp[a],sl==rl==0)); st[a]=j; stp[a]=pi
                    else: conf.append((s,a,'RS reduce',stp[a],sl==rl==0))
                else: raise Exception
            else: st[a]=j; stp[a]=pi
def verbose():
    print(len(P),N,len(T))
    for i,p in enumerate(P): print(i,p[0],'->',' '.join(p[1]),pprec(p))
    def show(it): pi,d=it; r=P[pi][1]; return P[pi][0]+' -> '+' '.join(r[:d]+['.']+r[d:])
    for s in range(N):
        print('state',s,[show(i) for i in kern[s]])
        print('   ',{a:(v if v>=0 else 'r%d'%-v) for a,v in action[s].items()})
        print('   ',{X:t for (q,X),t in trans.items() if q==s and X in NT})
    for c in conf: print(c, [show(i) for i in kern[c[0]]])

TERMS=['LOGICAL_OP','EQUAL_OP','REL_OP','PLUS_OP','MINUS_OP','MULT_OP','DIVMOD_OP','UNION_OP','PATH_SEP','ABBREV_PATH_SEP',
 'OPEN_BRACKET','CLOSE_BRACKET','CLOSE_PAREN','COMMA','$end','OPEN_PAREN','LITERAL','FLOAT','INTEGER','STAR_OP','NAME',
 'DOLLAR','ABBREV_AXIS_AT','AXIS_SEP','ABBREV_STEP_SELF','ABBREV_STEP_PARENT']
TN=['logical','equal','rel','plus','minus','mult','divmod','union','pathSep','abbrevSep','lbrack','rbrack','rparen','comma',
 'eof','lparen','literal','float','integer','star','name','dollar','at','axisSep','dot','dotdot']
NTS=['Expr','ExprList','RelativeLocationPath','AbsoluteLocationPath','AbbreviatedAbsoluteLocationPath','Step','AxisSpecifier',
 'NodeTest','NameTest','PredicatedExpression','PredicateList','Predicate','VariableReference','Number','FunctionCall',
 'FormalArguments','ArgumentList']
NN=['expr','exprList','relPath','absPath','abbrevAbsPath','step','axisSpec','nodeTest','nameTest','predicated','predList',
 'pred','varRef','number','funCall','formalArgs','argList']
def sym(x): return '.t .'+TN[TERMS.index(x)] if x in TERMS else '.n .'+NN[NTS.index(x)]
def emit():
    o=[]
    o.append("""/-
The tables of the parser of MicroXPath expressions.  `pylib/uxml/uxpath/__init__.py` 60 has them computed by
`ply.yacc` (not part of the repository) from the grammar and the precedences of
`pylib/uxml/uxpath/parserules.py`.  This file is printed by `tools/lalr.py`, which does what PLY does;
`Props/XParse` proves which expressions the driver accepts with these tables.
-/
namespace Amara.X

/-- The kinds of tokens, `uxml/uxpath/lexrules.py` 20-45, and the end of the input.  `NODETEXTTEST` is left out: no
rule of the grammar uses it.  The lexer never produces `mult`. -/
inductive Term where""")
    o.append('  | '+' | '.join(TN[:14])+'\n  | '+' | '.join(TN[14:]))
    o.append("""deriving DecidableEq, Repr

/-- The nonterminals of the grammar, `uxml/uxpath/parserules.py`. -/
inductive NonTerm where""")
    o.append('  | '+' | '.join(NN[:9])+'\n  | '+' | '.join(NN[9:]))
    o.append("""deriving DecidableEq, Repr

inductive Sym where
  | t (a : Term)
  | n (a : NonTerm)
deriving DecidableEq, Repr

/-- An entry of the action table. -/
inductive Act where
  | shift (s : Nat)
  | reduce (p : Nat)
  | accept
  | error
deriving DecidableEq, Repr

/-- The number of a kind of token: its column in the action table. -/
def Term.num : Term → Nat""")
    for i,n in enumerate(TN): o.append(f'  | .{n} => {i}')
    o.append("""
/-- The number of a nonterminal: its column in the table of transitions. -/
def NonTerm.num : NonTerm → Nat""")
    for i,n in enumerate(NN): o.append(f'  | .{n} => {i}')
    o.append("""
/-- The productions, in the order of `uxml/uxpath/parserules.py` 27-341, numbered from 1; number 0 is the one PLY adds
for the start symbol.  The result is the left side and the right side. -/
def prods : List (NonTerm × List Sym) := [""")
    L=[]
    for i,p in enumerate(P):
        L.append(f"  ({'.'+NN[NTS.index(p[0])] if i else '.expr'}, [{', '.join(sym(x) for x in p[1])}])")
    o.append(',\n'.join(L)+']')
    def act(s,t):
        v=action[s].get(t)
        if v is None: return '.error'
        if v==0: return '.accept'
        return f'.shift {v}' if v>0 else f'.reduce {-v}'
    o.append("\n/-- The action table: a row for each state, a column for each kind of token. -/\ndef actTable : List (List Act) := [")
    L=[]
    for s in range(N): L.append('  ['+', '.join(act(s,t) for t in TERMS)+']')
    o.append(',\n'.join(L)+']')
    o.append("\n/-- The transitions on nonterminals: a row for each state, a column for each nonterminal; 0 is none. -/\ndef gotoTable : List (List Nat) := [")
    L=[]
    for s in range(N): L.append('  ['+', '.join(str(trans.get((s,x),0)) for x in NTS)+']')
    o.append(',\n'.join(L)+']')
    o.append("""
def action (s : Nat) (a : Term) : Act := (actTable.getD s []).getD a.num .error

def goto (s : Nat) (a : NonTerm) : Nat := (gotoTable.getD s []).getD a.num 0

end Amara.X""")
    print('\n'.join(o))
def paths():
    symof={0:'$end'}; prev={s:set() for s in range(N)}
    for (q,X),t in trans.items():
        assert symof.setdefault(t,X)==X
        prev[t].add(q)
    o=["""import Verif.Model.XTables
/-
The symbol that leads to each state and the states it leads from.  Printed by `tools/lalr.py -p`; `Lemmas/XSound` checks
it against the tables.
-/
namespace Amara.X

/-- The symbol on the transitions to each state; nothing leads to state 0, for which it is the end of the input. -/
def symTable : List Sym := ["""]
    o.append(',\n'.join('  '+', '.join(sym(symof[s]) for s in range(i,min(N,i+6))) for i in range(0,N,6))+']')
    o.append('\n/-- The states with a transition to each state. -/\ndef prevTable : List (List Nat) := [')
    o.append(',\n'.join('  ['+', '.join(str(q) for q in sorted(prev[s]))+']' for s in range(N))+']')
    o.append('\nend Amara.X')
    print('\n'.join(o))
if __name__=='__main__':
    verbose() if '-v' in sys.argv else paths() if '-p' in sys.argv else emit()
