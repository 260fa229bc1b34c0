"""Translates the assertions of /repo/tests (read as text, with ast) into examples about the model."""
import ast, sys, json
from fractions import Fraction
T='/repo/tests/'
FN={'sin':'sin','cos':'cos','tan':'tan','sec':'sec','csc':'csc','cot':'cot','asin':'asin','acos':'acos','atan':'atan'}
class Un(Exception): pass
class Num:
    def __init__(s,q): s.q=q
class Lean:
    def __init__(s,t): s.t=t
class Sym(Lean):
    def __init__(s,name): s.t='sy '+json.dumps(name); s.name=name
def lit(q):
    q=Fraction(q)
    return f'n ({q.numerator})' if q.denominator==1 else f'n ({q.numerator} / {q.denominator})'
def P(v):
    if isinstance(v,Num): return '('+lit(v.q)+')'
    if isinstance(v,Lean): return '('+v.t+')'
    raise Un('not an expr')
def ev(a,env):
    if isinstance(a,ast.Constant):
        if isinstance(a.value,bool) or isinstance(a.value,str): return a.value
        if isinstance(a.value,int): return Num(Fraction(a.value))
        raise Un('const '+repr(a.value))
    if isinstance(a,ast.Name):
        if a.id in env: return env[a.id]
        raise Un('name '+a.id)
    if isinstance(a,ast.UnaryOp) and isinstance(a.op,ast.USub):
        v=ev(a.operand,env)
        if isinstance(v,Num): return Num(-v.q)
        return Lean('tNeg '+P(v))
    if isinstance(a,ast.BinOp):
        l,r=ev(a.left,env),ev(a.right,env)
        if isinstance(l,list) and isinstance(r,Num) and isinstance(a.op,ast.Mult): return l*int(r.q)
        if isinstance(l,Num) and isinstance(r,Num):
            o=type(a.op)
            if o is ast.Add: return Num(l.q+r.q)
            if o is ast.Sub: return Num(l.q-r.q)
            if o is ast.Mult: return Num(l.q*r.q)
            if o is ast.Div: return Num(l.q/r.q)
            if o is ast.Pow and r.q.denominator==1: return Num(l.q**int(r.q))
        m={ast.Add:'tAdd',ast.Sub:'tSub',ast.Mult:'tMul',ast.Div:'tDiv',ast.Pow:'tPow'}[type(a.op)]
        return Lean(f'{m} {P(l)} {P(r)}')
    if isinstance(a,ast.List): return [ev(t,env) for t in a.elts]
    if isinstance(a,ast.Tuple): return tuple(ev(t,env) for t in a.elts)
    if isinstance(a,ast.Starred): return ev(a.value,env)
    if isinstance(a,ast.Call):
        if isinstance(a.func,ast.Name):
            f=a.func.id
            if f in env and callable(env[f]): 
                return env[f](*[w for t in a.args for w in (ev(t.value,env) if isinstance(t,ast.Starred) else (ev(t,env),))])
            if f in ('Rat','Fraction','F'):
                v=[ev(t,env) for t in a.args]
                q=v[0].q/(v[1].q if len(v)>1 else 1)
                return Lean(lit(q)) if f=='Rat' else Num(q)
            v=[ev(t,env) for t in a.args]
            if f in FN: return Lean(f'tTrig .{FN[f]} {P(v[0])}')
            if f=='log': return Lean(f'tLog {P(v[0])}') if len(v)==1 else Lean(f'tLogB {P(v[0])} {P(v[1])}')
            if f=='abs': return Lean(f'tAbs {P(v[0])}')
            if f=='sqrt': return Lean(f'tSqrt {P(v[0])}')
            if f=='Power': return Lean(f'tPower {P(v[0])} {P(v[1])}')
            if f in('Sum','Prod'): return Lean(f't{f} ['+', '.join(P(t) for t in v[0])+']')
            if f=='diff': return Lean(f'tDiff {json.dumps(v[1].name)} {P(v[0])}')
            if f=='product_to_sum_unit': return Lean(f'tPtsU {P(v[0])}')
            if f=='Symbol': return Sym(v[0])
            if f=='symbols':
                l=[Sym(s) for s in v[0].split()]
                return l[0] if len(l)==1 else tuple(l)
            if f=='integrate':
                b=v[1] if len(v)>1 else None
                for k in a.keywords:
                    if k.arg=='var': b=ev(k.value,env)
                    else: raise Un('kw '+k.arg)
                return Lean(integ(v[0],b))
            raise Un('call '+f)
        if isinstance(a.func,ast.Attribute):
            o=ev(a.func.value,env); v=[ev(t,env) for t in a.args] if a.func.attr!='subs' else None
            m=a.func.attr
            if m in('expand','simplify','factor'): return Lean(f't{m.capitalize()} {P(o)}')
            if m=='diff': return Lean(f'tDiff {json.dumps(v[0].name)} {P(o)}')
            if m=='subs':
                d=a.args[0]; assert isinstance(d,ast.Dict) and len(d.keys)==1
                return Lean(f'tSubs {json.dumps(d.keys[0].value)} {P(ev(d.values[0],env))} {P(o)}')
            raise Un('method '+m)
        raise Un('call')
    raise Un(type(a).__name__)
def integ(e,b):
    if b is None: return f'tInt {P(e)}'
    if isinstance(b,Sym): return f'tIntV {json.dumps(b.name)} {P(e)}'
    if isinstance(b,tuple) and len(b)==2: return f'tIntB {P(b[0])} {P(b[1])} {P(e)}'
    if isinstance(b,tuple) and len(b)==3: return f'tIntF {json.dumps(b[0].name)} {P(b[1])} {P(b[2])} {P(e)}'
    raise Un('bounds')
def fold(o,l): return l[0] if len(l)==1 else f'{o} ({l[0]}) ({fold(o,l[1:])})'
def boolean(a,env):
    """assert condition -> Lean Bool"""
    if isinstance(a,ast.UnaryOp) and isinstance(a.op,ast.Not): return 'fails ('+boolean(a.operand,env)+')'
    if isinstance(a,ast.BoolOp):
        return fold('ror' if isinstance(a.op,ast.Or) else 'rand',[boolean(t,env) for t in a.values])
    if isinstance(a,ast.Call) and isinstance(a.func,ast.Attribute) and a.func.attr=='expandable':
        return 'able '+P(ev(a.func.value,env))
    if isinstance(a,ast.Compare):
        parts=[a.left]+a.comparators
        out=[]
        for i,op in enumerate(a.ops):
            out.append(cmp1(parts[i],op,parts[i+1],env))
        return fold('rand',out)
    raise Un('bool '+ast.dump(a)[:60])
def isrepr(a):
    if isinstance(a,ast.Call) and isinstance(a.func,ast.Name) and a.func.id=='repr': return a.args[0]
    if isinstance(a,ast.Call) and isinstance(a.func,ast.Attribute) and a.func.attr=='__repr__': return a.func.value
def cmp1(l,op,r,env):
    if isrepr(l) is not None and isinstance(op,ast.Eq):
        if isrepr(r) is not None: return f'sameText {P(ev(isrepr(l),env))} {P(ev(isrepr(r),env))}'
        return f'text {P(ev(isrepr(l),env))} {json.dumps(r.value)}'
    if isinstance(l,ast.Call) and isinstance(l.func,ast.Name) and l.func.id=='latex':
        return f'tex {P(ev(l.args[0],env))} {json.dumps(r.value)}'
    if isinstance(l,ast.Call) and isinstance(l.func,ast.Name) and l.func.id=='nesting':
        v=[ev(t,env) for t in l.args]
        return f'nests {json.dumps(v[1].name)} {P(v[0])} {int(ev(r,env).q)}'
    if isinstance(l,ast.Call) and isinstance(l.func,ast.Name) and l.func.id=='count':
        v=[ev(t,env) for t in l.args]
        return f'counts {P(v[0])} {P(v[1])} {int(ev(r,env).q)}'
    if isinstance(l,ast.Attribute) and l.attr=='is_subtraction' and isinstance(op,ast.Is):
        b=ev(r,env); return f'isSub {P(ev(l.value,env))} {str(b).lower()}'
    if isinstance(op,ast.Is) and isinstance(r,ast.Constant) and r.value is None:
        v=ev(l,env); return f'isNone {P(v)}'
    if isinstance(op,(ast.Eq,ast.NotEq)):
        L,R=ev(l,env),ev(r,env)
        if isinstance(L,tuple): return fold('rand',[f'strict {P(s)} {P(t)}' for s,t in zip(L,R)])
        s=f'strict {P(L)} {P(R)}'
        return s if isinstance(op,ast.Eq) else 'fails ('+s+')'
    raise Un('cmp')
CALLS={}
def call(name,args,kw,env):
    if name=='assert_eq_strict': return f'strict {P(args[0])} {P(args[1])}'
    if name=='assert_eq_value': return f'sameValue {P(args[0])} {P(args[1])}'
    if name=='assert_diff': return f'sameValue (tDiff "x" {P(args[0])}) {P(args[1])}'
    if name=='assert_diff_': return f'strict (tSubs "x" {P(args[1])} (tDiff "x" {P(args[0])})) {P(args[2])}'
    if name=='assert_simplified': return f'strict (tSimplify {P(args[0])}) {P(args[1])}'
    if name=='assert_latex': return f'tex {P(args[0])} {json.dumps(args[1])}'
    if name=='assert_definite_integral': return f'strict ({integ(args[0],args[1])}) {P(args[2])}'
    if name=='assert_integral':
        b=kw.get('var'); 
        if isinstance(args[1],tuple): return fold('ror',[f'plusC [] ({integ(args[0],b)}) {P(t)}' for t in args[1]])
        return f'plusC [] ({integ(args[0],b)}) {P(args[1])}'
    if name=='assert_eq_plusc':
        vs='['+', '.join(json.dumps(v.name) for v in args[2:])+']'
        return f'plusC {vs} {P(args[0])} {P(args[1])}'
    raise Un('callstmt '+name)
out=[];bad=[]
for f in ['test_exprs','test_latex','test_derivatives','test_expand_power','test_nums','test_pts','test_trig_simplify','test_integrals','test_khan_academy_integrals']:
    tree=ast.parse(open(T+f+'.py').read())
    base={'x':Sym('x'),'y':Sym('y'),'e':Lean('.ok euler'),'pi':Lean('.ok pi'),'inf':Lean('.ok inf')}
    base['integrate_polar']=lambda r,th,a,b: Lean(f'tDiv ({integ(Lean("tPow "+P(r)+" (n (2))"),(th,a,b))}) (n (2))')
    for fn in tree.body:
        if not isinstance(fn,ast.FunctionDef) or not fn.name.startswith('test_'): continue
        xf=any('xfail' in ast.dump(d) for d in fn.decorator_list)
        if any('parametrize' in ast.dump(d) for d in fn.decorator_list): bad.append((f,fn.name,'parametrize'));continue
        env=dict(base); env['True']=True
        for st in fn.body:
            try:
                if isinstance(st,ast.Assign):
                    # star args not supported
                    t=st.targets[0]; v=ev(st.value,env)
                    if isinstance(t,ast.Name): env[t.id]=v
                    elif isinstance(t,ast.Tuple):
                        for n_,w in zip(t.elts,v): env[n_.id]=w
                    else: raise Un('assign')
                elif isinstance(st,ast.Expr) and isinstance(st.value,ast.Call):
                    c=st.value
                    r=call(c.func.id,[ev(t,env) for t in c.args],{k.arg:ev(k.value,env) for k in c.keywords},env)
                    out.append((f,fn.name,st.lineno,ast.unparse(st),r,xf))
                elif isinstance(st,ast.Assert):
                    out.append((f,fn.name,st.lineno,ast.unparse(st.test),boolean(st.test,env),xf))
                elif isinstance(st,ast.Expr) and isinstance(st.value,ast.Constant): pass
                else: raise Un('stmt '+type(st).__name__)
            except Exception as ex:
                if isinstance(st,ast.Assign) and isinstance(st.targets[0],ast.Attribute): bad.append((f,st.lineno,'attr'));continue
                bad.append((f,fn.name,st.lineno,type(ex).__name__+' '+str(ex)))
                if isinstance(st,ast.Assign):
                    for n_ in ast.walk(st.targets[0]):
                        if isinstance(n_,ast.Name): env.pop(n_.id,None)

L={'test_exprs':'Exprs','test_latex':'Latex','test_derivatives':'Derivatives','test_expand_power':'ExpandPower','test_nums':'Nums','test_pts':'Pts','test_trig_simplify':'TrigSimplify','test_integrals':'Integrals','test_khan_academy_integrals':'KhanAcademy'}
# the flag _strictly_positive, which only this test sets, is not modelled
SKIP={('test_exprs','test_some_constructor_simplification')}
n=0
for f,m in L.items():
    rows=[t for t in out if t[0]==f and (f,t[1]) not in SKIP]
    if not rows: continue
    with open(f'/verif/lean/Verif/Conform/{m}.lean','w') as g:
        g.write(f"""import Verif.Conform.Dsl

/-! The assertions of /repo/tests/{f}.py that can be said in the model, evaluated in the kernel (written by tools/gen_conform.py).
These are tests of the model, not properties: they compare it with what the author of the program expects of it. -/

namespace Simpy.Conform
open Simpy Expr
set_option maxRecDepth 100000

""")
        last=None
        for t in rows:
            if t[1]!=last: g.write(f'/-! {t[1]} -/\n\n'); last=t[1]
            src=t[3].replace('\n',' ')
            g.write(f'/-- Line {t[2]}: `{src}`'+(' (expected to fail)' if t[5] else '')+' -/\n')
            g.write(f'example : holds ({t[4]}) = {"false" if t[5] else "true"} := by decide +kernel\n\n'); n+=1
        g.write('end Simpy.Conform\n')
print(n,'assertions;',len(bad),'statements left out')
for b in bad: print(b)
