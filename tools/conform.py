#!/usr/bin/env python3
"""Compares the text of the twelve Stockham headers src/otfft_avxdi{f,t}{4,8,16}{,omp}.h and of the mixed-radix header
src/otfft_mixedradix.h with the Lean model.

Nothing is compiled or run: every kernel (struct fwdcore, invcore, fwdend, invend and their specialisations) is read as
text, its index arithmetic is evaluated for many template arguments (n, s), and its data flow is followed with symbolic
values (terms over addpz, subpz, mulpz, ...). The result, one record per loop iteration, is compared with what
lean/Verif/Model/Stockham.lean says about the same kernel; the butterflies are read from lean/Verif/Model/Butterfly.lean.
Equality is equality of terms, so order of operands and shape of the computation count. Also compared: the recursion
fwdfft/invfft, the loop annotations (none, omp for, nowait, single) and the dispatch switches.

The mixed-radix header is followed as a whole, in its four copies (forward, inverse, each single-threaded and OpenMP), for
all lengths up to 200 and some larger ones, and compared with lean/Verif/Model/MixedRadix.lean.

This is a check of the transcription, outside the proofs: it tells that the model says what the source says.

Usage: conform.py [/repo [/verif]]
"""
import re, sys

REPO = sys.argv[1] if len(sys.argv) > 1 else '/repo'
VERIF = sys.argv[2] if len(sys.argv) > 2 else '/verif'

# ---------------------------------------------------------------- reading C++

def clean(text):
    """removes comments and the branches of #if 0/#if 1 that are not compiled; keeps #pragma"""
    text = re.sub(r'/\*.*?\*/', '', text, flags=re.S)
    text = re.sub(r'//[^\n]*', '', text)
    out, stack = [], []
    for l in text.split('\n'):
        t = l.strip()
        if t.startswith('#if'):
            stack.append({'#if 0': False, '#if 1': True}.get(t, True))
        elif t.startswith('#else'):
            stack[-1] = not stack[-1]
        elif t.startswith('#endif'):
            stack.pop()
        elif all(stack):
            out.append(l)
    return '\n'.join(out)

def block(s, i):
    """the text between the brace at or after position i and its partner, and the position behind it"""
    i = s.index('{', i)
    d = 0
    for j in range(i, len(s)):
        d += {'{': 1, '}': -1}.get(s[j], 0)
        if d == 0:
            return s[i + 1:j], j + 1

def structs(s):
    """all 'template <params> struct name<args> { body }' of the text"""
    for m in re.finditer(r'template\s*<([^<>]*)>\s*struct\s+(\w+)\s*(<[^<>]*>)?\s*\{', s):
        body, _ = block(s, m.end() - 1)
        params = [p.split()[-1] for p in m.group(1).split(',')]
        args = [a.strip() for a in m.group(3)[1:-1].split(',')] if m.group(3) else params
        yield m.group(2), args, body

# ---------------------------------------------------------------- symbolic values

class Ptr:
    def __init__(self, a, o=0): self.a, self.o = a, o
    def __add__(self, k): return Ptr(self.a, self.o + k)
    def __getitem__(self, k): return Ptr(self.a, self.o + k)
    def __eq__(self, q): return (self.a, self.o) == (q.a, q.o)

class Task:
    """one iteration: cells read, terms stored"""
    def __init__(self): self.reads, self.writes = set(), {}

class Kernel:
    """interpreter for the body of one kernel"""
    def __init__(self): self.items, self.cur = [], None
    def rd(self, p):
        self.cur.reads.add((p.a, p.o))
        assert (p.a, p.o) not in self.cur.writes
        return (p.a, p.o)
    def wr(self, p, v):
        assert (p.a, p.o) not in self.cur.writes
        self.cur.writes[(p.a, p.o)] = v
    def env(self):
        lanes = lambda f: lambda *v: [f(*a) for a in zip(*v)]
        op = lambda name: lanes(lambda *a: (name,) + a)
        def put(p, v):
            for i, a in enumerate(v): self.wr(p + i, a)
        e = dict(getpz=lambda p: [self.rd(p)], getpz2=lambda p: [self.rd(p + i) for i in range(2)],
                 getez4=lambda p: [self.rd(p + i) for i in range(4)],
                 duppz3=lambda z: [self.ref(z)] * 2, duppz2=lambda z: [self.ref(z)] * 2, dupez5=lambda z: [self.ref(z)] * 4,
                 conj=lambda z: ('cnj', self.ref(z)),
                 catlo=lambda a, b: [a[0], b[0]], cathi=lambda a, b: [a[1], b[1]],
                 setpz=put, setpz2=put, setez4=put, zeroupper=lambda: None,
                 # src/otfft_misc.h:199-214
                 twid=lambda r, N, k: lambda W, p: W + ((k - 1) * (N // r) + p),
                 twidT=lambda r, N, k: lambda W, p: W + (N + r * p + k),
                 scalepz=lambda N, mode: lambda v: [('scale', N, mode, a) for a in v],
                 scalepz2=lambda N, mode: lambda v: [('scale', N, mode, a) for a in v],
                 deref=lambda p: p)
        for o in 'add sub mul'.split():
            for w in 'pz pz2 ez4'.split(): e[o + w] = op(o)
        for o in 'jx v8x w8x h1x h3x hfx hdx'.split():
            for w in 'pz pz2 ez4'.split(): e[o + w] = op(o)
        for w in 'pz pz2 ez4'.split(): e['cnj' + w] = op('cnj')
        return e
    def ref(self, z): return self.rd(z) if isinstance(z, Ptr) else z

def fixup(e):
    """a C++ expression as a Python expression"""
    e = re.sub(r'\b(\w+)\s*\?\s*(\w+)\s*:\s*(\w+)', r'(\2 if \1 else \3)', e)
    e = re.sub(r'\*\s*twidT<', 'twidT<', e)          # the reference is followed when it is read
    e = re.sub(r'\b(twidT?|scalepz2?|[gs]etpz3)<([^<>]*)>', r'\1(\2)', e)
    return e.replace('/', '//')

def lex(body):
    """statements, pragmas, for-headers and braces of a function body, in order"""
    i = 0
    while True:
        m = re.compile(r'\s*').match(body, i); i = m.end()
        if i >= len(body): return
        if body[i] == '#':
            j = body.index('\n', i); yield ('pragma', body[i:j].strip()); i = j
        elif body[i] in '{}':
            yield (body[i], None); i += 1
        elif re.compile(r'for\s*\(').match(body, i):
            d, j = 0, body.index('(', i)
            k = j
            while True:
                d += {'(': 1, ')': -1}.get(body[k], 0)
                if d == 0: break
                k += 1
            yield ('for', body[j + 1:k]); i = k + 1
        else:
            j = body.index(';', i); yield ('stmt', ' '.join(body[i:j].split())); i = j + 1

def tree(tokens):
    """nested list of statements; a for or pragma is followed by what it applies to"""
    out = []
    for k, v in tokens:
        if k == '{': out.append(('block', tree(tokens)))
        elif k == '}': return out
        else: out.append((k, v))
    return out

def run(K, stmts, env, depth, kind):
    """executes statements; a Task is opened by the innermost loop (or by the code without loops)"""
    i = 0
    hasloop = any(k in ('for', 'pragma') for k, _ in stmts)
    while i < len(stmts):
        k, v = stmts[i]
        if k == 'pragma':
            v = ' '.join(v.split())
            kind = {'#pragma omp for schedule(static)': 'omp', '#pragma omp for schedule(static) nowait': 'ompNowait',
                    '#pragma omp single': 'single'}[v]
            i += 1
        elif k == 'for':
            m = re.fullmatch(r'int (\w+) = 0; (\w+) < ([\w/]+); (\w+)(\+\+| \+= (\d+))', ' '.join(v.split()))
            var, var2, lim, var3, _, step = m.groups()
            assert var == var2 == var3 and stmts[i + 1][0] == 'block'
            inner = stmts[i + 1][1]
            for t in range(0, eval(fixup(lim), {}, env), int(step or 1)):
                e = dict(env); e[var] = t
                if any(a == 'for' for a, _ in inner):
                    # twiddles loaded outside the inner loop belong to each of its iterations
                    pre = [x for x in inner if x[0] == 'stmt']
                    j = [a for a, _ in inner].index('for')
                    assert all(x[0] == 'stmt' for x in inner[:j]) and len(inner) == j + 2
                    m2 = re.fullmatch(r'int (\w+) = 0; (\w+) < ([\w/]+); (\w+)(\+\+| \+= (\d+))', ' '.join(inner[j][1].split()))
                    var_, _, lim_, _, _, step_ = m2.groups()
                    pe = dict(e)
                    K.cur = Task()
                    for x in pre: stmt(K, x[1], pe)
                    assert not K.cur.writes
                    pr = K.cur.reads
                    for u in range(0, eval(fixup(lim_), {}, pe), int(step_ or 1)):
                        e2 = dict(pe); e2[var_] = u
                        K.cur = Task(); K.cur.reads |= pr
                        for x in inner[j + 1][1]:
                            assert x[0] == 'stmt'
                            stmt(K, x[1], e2)
                        K.items.append((kind, K.cur))
                else:
                    K.cur = Task()
                    for x in inner:
                        assert x[0] == 'stmt', x
                        stmt(K, x[1], e)
                    K.items.append((kind, K.cur))
            kind = 'serial'
            i += 2
        elif k == 'block':
            run(K, v, dict(env), depth, kind)
            i += 1
        else:
            if not hasloop and K.cur is None:
                K.cur = Task(); K.items.append((kind, K.cur))
            stmt(K, v, env)
            i += 1

def stmt(K, s, env):
    m = re.fullmatch(r'(?:const )?(?:constexpr )?(?:int|complex_vector|const_complex_vector|xmm|ymm|emm|bool) (\w+) = (.*)', s)
    if m:
        env[m.group(1)] = eval(fixup(m.group(2)), {}, env)
    else:
        eval(fixup(s), {}, env)

def execute(params, vals, body):
    """the iterations of a kernel for given template arguments"""
    K = Kernel()
    env = K.env()
    env.update(zip(params, vals))
    for m in re.finditer(r'static constexpr int (\w+)\s*= ([^;]*);', body):
        env[m.group(1)] = eval(fixup(m.group(2)), {}, env)
    m = re.search(r'void operator\(\)\(([^()]*)\)', body)
    names = [a.split()[-1] for a in m.group(1).split(',')]
    for a in names:
        if a != 'const_complex_vector': env[a] = Ptr(a)
    b, _ = block(body, m.end())
    run(K, tree(lex(b)), env, 0, 'serial')
    return K.items

# ---------------------------------------------------------------- the model (lean/Verif/Model)

def butterflies():
    """the terms of Model/Butterfly.lean"""
    text = open(VERIF + '/lean/Verif/Model/Butterfly.lean').read()
    res = {}
    for m in re.finditer(r'^def (bf\w+) : BF (\d+) where\n  fn := fun x =>(.*?)(?=\n\n)', text, re.S | re.M):
        res[m.group(1)] = (int(m.group(2)), m.group(3))
    return res

def parse_term(toks, env, X):
    """application syntax of Lean: f a b, with parentheses"""
    def atom():
        t = toks.pop(0)
        if t == '(':
            v = app(); assert toks.pop(0) == ')'; return v
        if t == 'x':
            return X[int(toks.pop(0))]
        if t in env: return env[t]
        return t
    def app():
        h = toks[0]
        if re.fullmatch(r'(add|sub|mul)pz', h):
            toks.pop(0); a = atom(); b = atom(); return (h[:-2], a, b)
        if re.fullmatch(r'(jx|v8x|w8x|h1x|h3x|hfx|hdx)pz', h):
            toks.pop(0); return (h[:-2], atom())
        return atom()
    return app()

BFS = butterflies()

def apply_bf(name, X):
    r, body = BFS[name]
    assert len(X) == r
    env = {}
    tok = lambda s: re.findall(r'[()]|\w+', s)
    i = body.index('![')
    for l in body[:i].split('\n'):
        l = l.strip()
        if l:
            m = re.fullmatch(r'let (\w+) := (.*)', l)
            t = tok(m.group(2)); env[m.group(1)] = parse_term(t, env, X); assert not t
    out, depth, cur = [], 0, ''
    for c in body[i + 2:body.rindex(']')]:
        if c == ',' and depth == 0: out.append(cur); cur = ''; continue
        depth += {'(': 1, ')': -1}.get(c, 0); cur += c
    out.append(cur)
    res = []
    for o in out:
        t = tok(o); res.append(parse_term(t, env, X)); assert not t
    assert len(res) == r
    return res

def bf(r, inv):
    return 'bf2' if r == 2 else 'bf%d%s' % (r, 'inv' if inv else 'fwd')

def bfv(r, inv, X):
    """butterfly at any SIMD width: lane by lane"""
    L = len(X[0])
    cols = [apply_bf(bf(r, inv), [X[j][l] for j in range(r)]) for l in range(L)]
    return [[cols[l][k] for l in range(L)] for k in range(r)]

mulv = lambda a, b: [('mul', x, y) for x, y in zip(a, b)]
def cj(inv, v): return [('cnj', a) for a in v] if inv else v
def wpow(w, k):
    if k <= 1: return w
    if k % 2 == 0: return mulv(wpow(w, k // 2), wpow(w, k // 2))
    return mulv(wpow(w, k // 2), wpow(w, k // 2 + 1))
def twiddles(path, inv, r, T):
    return [cj(inv, t) for t in T] if path == 'serial' else [wpow(cj(inv, T[0]), k + 1) for k in range(r - 1)]
def difOut(r, inv, X, T):
    B = bfv(r, inv, X)
    return [B[k] if k == 0 else mulv(T[k - 1], B[k]) for k in range(r)]
def ditOut(r, inv, X, T):
    return bfv(r, inv, [X[j] if j == 0 else mulv(T[j - 1], X[j]) for j in range(r)])
def transpOut(r, o):
    return [[o[2 * k][0], o[2 * k + 1][0]] if 2 * k < r else [o[2 * k - r][1], o[2 * k - r + 1][1]] for k in range(r)]
def transpIn(r, Y):
    return [[Y[c // 2][c % 2], Y[c // 2 + r // 2][c % 2]] for c in range(r)]

def bfly(ins, tws, outs, f):
    """bfly of Model/Mem: loads, then stores; an operand is a list of cells, one per lane"""
    t = Task()
    for v in ins + tws: t.reads |= set(v)
    res = f(ins, tws)
    for o, v in zip(outs, res):
        for c, a in zip(o, v): t.writes[c] = a
    return t

vec = lambda L, a, o: [(a, o + l) for l in range(L)]
dup = lambda L, a, o: [(a, o)] * L
cnt = lambda s, L: (s + L - 1) // L

def model_coreS(dit, r, path, inv, n, s):
    N, N1 = n * s, n * s // r
    L = 4 if path == 'omp' or r < 16 else 2
    src, dst = ('y', 'x') if dit else ('x', 'y')
    out = []
    its = [(p, L * i) for p in range(n // r) for i in range(cnt(s, L))] if path == 'serial' else \
          [(i // (s // 4), i % (s // 4) * 4) for i in range(N1 // 4)]
    for p, q in its:
        sp = s * p
        lo = [vec(L, 'x', q + sp + N1 * j) for j in range(r)]
        hi = [vec(L, 'y', q + r * sp + s * k) for k in range(r)]
        T = [dup(L, 'W', r * sp + N + k + 1) for k in range(r - 1)] if path == 'serial' else [dup(L, 'W', sp)]
        if dit: t = bfly(hi, T, lo, lambda X, T: ditOut(r, inv, X, twiddles(path, inv, r, T)))
        else: t = bfly(lo, T, hi, lambda X, T: difOut(r, inv, X, twiddles(path, inv, r, T)))
        out.append(('serial' if path == 'serial' else 'omp', t))
    return out

def model_core1(dit, r, path, inv, N):
    N1 = N // r
    out = []
    for i in range(cnt(N1, 2)):
        p = 2 * i
        lo = [vec(2, 'x', p + N1 * j) for j in range(r)]
        hi = [vec(2, 'y', r * p + 2 * k) for k in range(r)]
        T = [vec(2, 'W', p + k * N1) for k in range(r - 1)] if path == 'serial' else [vec(2, 'W', p)]
        if dit: t = bfly(hi, T, lo, lambda X, T: ditOut(r, inv, transpIn(r, X), twiddles(path, inv, r, T)))
        else: t = bfly(lo, T, hi, lambda X, T: transpOut(r, difOut(r, inv, X, twiddles(path, inv, r, T))))
        out.append(('serial' if path == 'serial' else 'ompNowait' if dit else 'omp', t))
    return out

def model_end(dit, r, path, inv, s, eo, mode):
    z = 'y' if eo else 'x'
    src, dst = (z, 'x') if dit else ('x', z)
    N = r * s
    sc = lambda v: [('scale', N, mode, a) for a in v]
    if s == 1:
        t = bfly([vec(1, src, j) for j in range(r)], [], [vec(1, dst, k) for k in range(r)],
                 lambda X, _: bfv(r, inv, [sc(v) for v in X]))
        return [('serial' if path == 'serial' else 'single', t)]
    out = []
    for i in range(cnt(s, 2)):
        q = 2 * i
        t = bfly([vec(2, src, q + s * j) for j in range(r)], [], [vec(2, dst, q + s * k) for k in range(r)],
                 lambda X, _: bfv(r, inv, [sc(v) for v in X]))
        out.append(('serial' if path == 'serial' else 'omp' if dit else 'ompNowait', t))
    return out

# ---------------------------------------------------------------- comparison

def same(cpp, mod, what):
    assert len(cpp) == len(mod), (what, 'iterations', len(cpp), len(mod))
    for i, ((k, a), (k2, b)) in enumerate(zip(cpp, mod)):
        assert k == k2, (what, i, 'annotation', k, k2)
        assert a.reads == b.reads, (what, i, 'reads', a.reads ^ b.reads)
        assert a.writes.keys() == b.writes.keys(), (what, i, 'writes', a.writes.keys() ^ b.writes.keys())
        for c in a.writes: assert a.writes[c] == b.writes[c], (what, i, c, a.writes[c], b.writes[c])

def calls(body):
    """the calls in the body of fwdfft/invfft"""
    b, _ = block(body, body.index('operator()'))
    return [' '.join(c.split()) for c in b.split(';') if c.strip()]

n_kernels = n_cases = 0
for dit in (False, True):
    for r in (4, 8, 16):
        for path in ('serial', 'omp'):
            name = 'otfft_avxdi%s%d%s.h' % ('t' if dit else 'f', r, '' if path == 'serial' else 'omp')
            ns = 'OTFFT_AVXDI%s%%d%s' % ('T' if dit else 'F', '' if path == 'serial' else 'omp')
            text = clean(open(REPO + '/src/' + name).read())
            seen = {}
            for sname, args, body in structs(text):
                inv = sname.startswith('inv')
                d = 'inv' if inv else 'fwd'
                key = (sname, tuple(args)); assert key not in seen; seen[key] = 1
                what = (name, sname, args)
                if sname.endswith('core'):
                    n_kernels += 1
                    if args == ['n', 's']:
                        for s in (r, 2 * r, r * r) if r < 16 else (r, 2 * r):
                            for n in (2 * r, 4 * r, r * r):
                                same(execute(args, (n, s), body), model_coreS(dit, r, path, inv, n, s), what + (n, s))
                                n_cases += 1
                    else:
                        assert args == ['N', '1']
                        for N in (2 * r, 4 * r, r * r, 2 * r * r):
                            same(execute(['N'], (N,), body), model_core1(dit, r, path, inv, N), what + (N,))
                            n_cases += 1
                elif sname.endswith('end'):
                    n_kernels += 1
                    assert args[2:] == ['eo', 'mode'] and args[0] in (['4', '2'] if r == 4 else [str(r)])
                    for s in ([1] if args[1] == '1' else [2, 4, 8, 16, 64]):
                        for eo in (False, True):
                            same(execute(['s', 'eo', 'mode'], (s, eo, 'M'), body),
                                 model_end(dit, int(args[0]), path, inv, s, eo, 'M'), what + (s, eo))
                            n_cases += 1
                elif sname.endswith('fft'):
                    cs = calls(body)
                    if args == ['n', 's', 'eo', 'mode']:
                        rec = '%sfft<n/%d,%d*s,!eo,mode>()(y, x, W)' % (d, r, r)
                        core = '%score<n,s>()(x, y, W)' % d
                        assert cs == ([rec, core] if dit else [core, rec]), (what, cs)
                    else:
                        k = int(args[0]); assert args[1:] == ['s', 'eo', 'mode']
                        pre = '' if k == r or (r == 4 and k == 2) else (ns % max(k, 4)) + '::'
                        assert cs == ['%s%send<%d,s,eo,mode>()(x, y)' % (pre, d, k)], (what, cs)
                else:
                    assert False, what
            want = set()
            for d in ('fwd', 'inv'):
                want |= {(d + 'core', ('n', 's')), (d + 'core', ('N', '1')), (d + 'fft', ('n', 's', 'eo', 'mode'))}
                for k in (2, 4, 8, 16):
                    if k <= r: want.add((d + 'fft', (str(k), 's', 'eo', 'mode')))
                for k in ([4, 2] if r == 4 else [r]):
                    want |= {(d + 'end', (str(k), 's', 'eo', 'mode')), (d + 'end', (str(k), '1', 'eo', 'mode'))}
            assert set(seen) == want, (name, set(seen) ^ want)
            # the dispatch switches of the OpenMP headers
            if path == 'omp':
                funs = re.findall(r'inline void (\w+)\(const int log_N,[^{]*\{(.*?)\n    \}', text, re.S)
            else:
                cpp = clean(open(REPO + '/src/otfft_algo_di%s%d.cpp' % ('t' if dit else 'f', r)).read())
                funs = re.findall(r'void FFT0::(\w+)\(complex_vector x, complex_vector y\) const noexcept\s*\{(.*?)\n        \}', cpp, re.S)
            modes = dict(fwd='scale_length', fwd0='scale_1', fwdu='scale_unitary', inv='scale_1', invn='scale_length', invu='scale_unitary')
            alias = dict(fwdn='fwd', inv0='inv')
            assert sorted(f for f, _ in funs) == sorted(list(modes) + list(alias)), (name, [f for f, _ in funs])
            for f, b in funs:
                b = ' '.join(b.split())
                if f in alias:
                    assert b == ('%s(log_N, x, y, W);' if path == 'omp' else '%s(x, y);') % alias[f], (name, f, b)
                    continue
                sw = 'switch (log_N) { case 0: break; ' + ' '.join(
                    'case %d: %sfft<(1<<%s%d),1,0,mode>()(x, y, W); break;' % (k, f[:3], ' ' if k < 10 else '', k) for k in range(1, 25)) + ' }'
                head = 'constexpr int mode = %s; ' % modes[f]
                if path == 'omp': exp = head + '#pragma omp parallel firstprivate(x,y,W) ' + sw
                else: exp = head + 'if (N < OMP_THRESHOLD) { ' + sw + ' } else ' + (ns % r) + 'omp::' + f + '(log_N, x, y, W);'
                assert b == exp, (name, f, b, exp)
            print('ok', name, len(seen), 'structs,', len(funs), 'entry points')
print(n_kernels, 'kernels agree with the model,', n_cases, 'instances')

# ---------------------------------------------------------------- src/otfft_mixedradix.h

class V(list):
    """a SIMD value: a list of lanes; + and * as struct cpx defines them"""
    def __add__(a, b): return V(('add', x, y) for x, y in zip(a, b))
    def __mul__(a, b): return V(('mul', x, y) for x, y in zip(a, b))

class Trace:
    """sequence of work items: (annotation, stores in order)"""
    def __init__(self): self.items = []; self.cur = None
    def loop(self, kind, it):
        for t in it:
            assert self.cur is None
            self.cur = []
            yield t
            self.items.append((kind, self.cur)); self.cur = None
    def put(self, p, v):
        for i, a in enumerate(v):
            if self.cur is None: self.items.append(('serial', [((p.a, p.o + i), a)]))
            else: self.cur.append(((p.a, p.o + i), a))

def to_python(body):
    """statements of the functions of the mixed-radix header as Python text"""
    pos = 0
    def ws():
        nonlocal pos
        while pos < len(body) and body[pos].isspace(): pos += 1
    def paren():
        nonlocal pos
        ws(); assert body[pos] == '('
        d, i = 0, pos
        while True:
            d += {'(': 1, ')': -1}.get(body[pos], 0); pos += 1
            if d == 0: return body[i + 1:pos - 1]
    def word(w):
        nonlocal pos
        ws()
        if re.compile(w + r'\b').match(body, pos): pos += len(w); return True
        return False
    def ex(e):
        e = re.sub(r'!(?!=)', ' not ', e)
        return fixup(' '.join(e.split()))
    def statement(ind, kind):
        nonlocal pos
        ws()
        pad = '    ' * ind
        if body[pos] == '#':
            j = body.index('\n', pos); t = ' '.join(body[pos:j].split()); pos = j
            k = {'#pragma omp for schedule(static)': 'omp', '#pragma omp for schedule(static) nowait': 'ompNowait',
                 '#pragma omp single': 'single'}[t]
            if k == 'single':
                return pad + "for _ in T.loop('single', [0]):\n" + statement(ind + 1, None)
            return statement(ind, k)
        if body[pos] == '{':
            pos += 1; out = ''
            while True:
                ws()
                if body[pos] == '}': pos += 1; return out or pad + 'pass\n'
                out += statement(ind, None)
        if word('if'):
            c = ex(paren()); out = pad + 'if %s:\n' % c + statement(ind + 1, None)
            if word('else'): out += pad + 'else:\n' + statement(ind + 1, None)
            return out
        if word('while'):
            c = ex(paren()); return pad + 'while %s:\n' % c + statement(ind + 1, None)
        if word('for'):
            m = re.fullmatch(r'int (\w+) = 0; (\w+) < ([\w/*]+); (\w+)(\+\+| \+= (\d+))', ' '.join(paren().split()))
            v, v2, lim, v3, _, st = m.groups(); assert v == v2 == v3
            rng = 'range(0, %s, %s)' % (ex(lim), st or 1)
            if kind: rng = "T.loop('%s', %s)" % (kind, rng)
            return pad + 'for %s in %s:\n' % (v, rng) + statement(ind + 1, None)
        j = body.index(';', pos); t = ' '.join(body[pos:j].split()); pos = j + 1
        if t in ('break', 'return'): return pad + t + '\n'
        if t == 'constexpr xmm zero = { 0, 0 }': return pad + "zero = V([('zero',)])\n"
        m = re.fullmatch(r'(?:const )?(?:int|complex_vector|xmm|ymm|cpx) (\w+) = (.*)', t)
        if m: return pad + '%s = %s\n' % (m.group(1), ex(m.group(2)))
        return pad + ex(t) + '\n'
    out = ''
    while True:
        ws()
        if pos >= len(body): return out
        out += statement(1, None)

def mixed_env(T):
    rd = lambda p, k: V((p.a, p.o + i) for i in range(k))
    op = lambda name: lambda *v: V((name,) + a for a in zip(*v))
    e = dict(Ptr=Ptr, V=V, T=T, getpz=lambda p: rd(p, 1), getpz2=lambda p: rd(p, 2), duppz3=lambda p: V([(p.a, p.o)] * 2),
             setpz=T.put, setpz2=T.put)
    for o in 'add sub mul jx v8x w8x cnj'.split():
        for w in 'pz pz2'.split(): e[o + w] = op(o)
    return e

MIX = clean(open(REPO + '/src/otfft_mixedradix.h').read())
MIXFUN = []
for m in re.finditer(r'\n    void (\w+)\(([^()]*)\) noexcept\s*\{', MIX):
    b, _ = block(MIX, m.end() - 1)
    MIXFUN.append(m.group(1))
    names = [a.split()[-1] for a in m.group(2).split(',')]
    src = 'def %s(%s):\n' % (m.group(1), ', '.join(names)) + to_python(b)
    MIXFUN[-1] = (m.group(1), src)
want = {d + k + p for d in ('fwd', 'inv') for k in ('end2 end4 end8 end3 end5 core2 core4 core8 core3 core5 fft fftany'.split()) for p in ('', 'p')}
assert {f for f, _ in MIXFUN} == want and len(MIXFUN) == len(want), {f for f, _ in MIXFUN} ^ want

def cpp_mixed(inv, path, n):
    T = Trace(); e = mixed_env(T)
    for _, src in MIXFUN: exec(src, e)
    e[('inv' if inv else 'fwd') + 'fft' + ('' if path == 'serial' else 'p')](n, 1, False, Ptr('x'), Ptr('y'), Ptr('W'))
    return T.items

# the model (lean/Verif/Model/MixedRadix.lean)

def sum5(x, w1):
    w2 = w1 * w1; w3 = w1 * w2; w4 = w2 * w2
    a, b, c, d, e = x
    return [a + b + c + d + e, a + w1*b + w2*c + w3*d + w4*e, a + w2*b + w4*c + w1*d + w3*e,
            a + w3*b + w1*c + w4*d + w2*e, a + w4*b + w3*c + w2*d + w1*e]
def sum3(x, w1):
    w2 = w1 * w1
    a, b, c = x
    return [a + b + c, a + w1*b + w2*c, a + w2*b + w1*c]
def mix8s(inv, X, T):
    w2, w3 = T[1], T[2]; w4 = mulv(w2, w2)
    return difOut(8, inv, X, [T[0], w2, w3, w4, mulv(w2, w3), mulv(w3, w3), mulv(w3, w4)])
def mix5(X, T):
    w1 = T[1]; w2 = w1 * w1; w3 = w1 * w2; w4 = w2 * w2
    S = sum5(X, T[0]); return [S[0], S[1] * w1, S[2] * w2, S[3] * w3, S[4] * w4]
def mix3(X, T):
    w1 = T[1]; w2 = w1 * w1
    S = sum3(X, T[0]); return [S[0], S[1] * w1, S[2] * w2]
def pows(inv, r): return lambda T: [wpow(cj(inv, T[0]), k + 1) for k in range(r - 1)]

def m_task(ins, tws, outs, f):
    res = f([V(v) for v in ins], [V(v) for v in tws])
    return [(c, a) for o, v in zip(outs, res) for c, a in zip(o, v)]

def mixCore(r, L, tw, f, path, n, s, x, y):
    N, N1 = n * s, n * s // r
    def body(p, i):
        q, sp = L * i, s * p
        return m_task([vec(L, x, q + sp + N1 * j) for j in range(r)], [dup(L, 'W', a) for a in tw(p)],
                      [vec(L, y, q + r * sp + s * k) for k in range(r)], f)
    if path == 'serial': return [('serial', body(p, i)) for p in range(n // r) for i in range(cnt(s, L))]
    return [('omp', body(i // (s // L), i % (s // L))) for i in range(N // (r * L))]

def mixEnd(r, L, tw, f, path, single, s, x, z):
    kind = 'serial' if path == 'serial' else 'single' if single else 'ompNowait'
    return [(kind, m_task([vec(L, x, L * i + s * j) for j in range(r)], [dup(L, 'W', a) for a in tw],
                          [vec(L, z, L * i + s * k) for k in range(r)], f)) for i in range(cnt(s, L))]

def findK(n, k):
    while n % k != 0:
        if k * k > n: return n
        k += 2
    return k

def anyBody(k, xa, wa, wip, ya):
    out = []
    for i in range(k):
        z = ('zero',)
        for j in range(k): z = ('add', z, ('mul', xa(j), wa(i * j % k)))
        out.append((ya(i), z if wip is None else ('mul', z, wip(i))))
    return out

def mixAny(inv, path, r, n, s, eo, x, y):
    N = n * s
    idx = lambda a: ('W', N - a if inv else a)
    bar, nowait = ('serial', 'serial') if path == 'serial' else ('omp', 'ompNowait')
    k = findK(n, r)
    if k == n:
        out = [(bar, anyBody(k, lambda j: (x, q + s * j), lambda a: idx(s * a), None, lambda i: (y, q + s * i))) for q in range(s)]
        if not eo: out += [(nowait, [((x, p), (y, p))]) for p in range(N)]
        return out
    m = n // k; ms = m * s
    def body(p, q):
        sp = s * p
        return anyBody(k, lambda j: (x, q + sp + ms * j), lambda a: idx(ms * a), lambda i: idx(i * sp), lambda i: (y, q + sp * k + s * i))
    its = [(p, q) for p in range(m) for q in range(s)] if path == 'serial' else [(h // s, h % s) for h in range(ms)]
    return [(bar, body(p, q)) for p, q in its] + mixAny(inv, path, k, m, k * s, not eo, y, x)

def mixFFT(inv, path, n, s, eo, x, y):
    N = n * s
    z = y if eo else x
    idx = lambda a: N - a if inv else a
    if N < 2: return []
    for r in (8, 4, 2):
        if n % r == 0:
            B = lambda X, T: bfv(r, inv, X)
            if n == r:
                return mixEnd(r, 2, [], B, path, False, s, x, z) if s >= 2 else mixEnd(r, 1, [], B, path, True, s, x, z)
            if r == 2: tws, twl, f2 = (lambda p: [idx(s * p)]), (lambda p: [idx(p)]), (lambda X, T: difOut(2, inv, X, T))
            else: tws, twl = (lambda p: [idx((k + 1) * (s * p)) for k in range(3)]), (lambda p: [p])
            if s >= 2:
                f = f2 if r == 2 else (lambda X, T: difOut(4, inv, X, T)) if r == 4 else (lambda X, T: mix8s(inv, X, T))
                c = mixCore(r, 2, tws, f, path, n, s, x, y)
            else:
                f = f2 if r == 2 else (lambda X, T: difOut(r, inv, X, pows(inv, r)(T)))
                c = mixCore(r, 1, twl, f, path, n, s, x, y)
            return c + mixFFT(inv, path, n // r, r * s, not eo, y, x)
    for r, mix, sm in ((5, mix5, sum5), (3, mix3, sum3)):
        if n % r == 0:
            if n == r: return mixEnd(r, 1, [(r - 1) * s if inv else s], lambda X, T: sm(X, T[0]), path, False, s, x, z)
            c = mixCore(r, 1, lambda p: [N // r * (r - 1) if inv else N // r, idx(s * p)], mix, path, n, s, x, y)
            return c + mixFFT(inv, path, n // r, r * s, not eo, y, x)
    return mixAny(inv, path, 7, n, s, eo, x, y)

def normal(items, path):
    """the single-threaded copies have no work items: only the order of the stores counts; twiddle terms as they are"""
    if path == 'serial': return [('serial', [e]) for _, st in items for e in st]
    return items

nm = 0
for inv in (False, True):
    for path in ('serial', 'omp'):
        for n in list(range(0, 201)) + [210, 240, 243, 256, 320, 343, 360, 385, 420, 480, 512, 539, 625]:
            a, b = normal(cpp_mixed(inv, path, n), path), normal(mixFFT(inv, path, n, 1, False, 'x', 'y'), path)
            assert len(a) == len(b), (inv, path, n, len(a), len(b))
            for i, (u, v) in enumerate(zip(a, b)): assert u == v, ('otfft_mixedradix.h', inv, path, n, i, u, v)
            nm += 1
print('ok otfft_mixedradix.h', len(MIXFUN), 'functions,', nm, 'traces agree with the model')
