"""A reader for the part of C++ that the otfft sources use, and a symbolic evaluator for it.

Values are not numbers: a double or a complex number is a 64-bit fingerprint of the term that computes it, so that equal
fingerprints mean the same operations in the same order on the same inputs. Only ints, pointers and control flow are
evaluated. Nothing of the library is compiled or executed."""
import re

M64 = (1 << 64) - 1

def fp(op, *args):
    h = op
    for a in args:
        h = ((h ^ a) * 0x9E3779B97F4A7C15) & M64
        h ^= h >> 29
    return h

class UB(Exception): pass
class BadAlloc(Exception): pass

# ------------------------------------------------------------------ values

class D:
    """a double"""
    __slots__ = ('h',)
    def __init__(self, h): self.h = h

def num(v):
    if isinstance(v, D): return v
    assert isinstance(v, int) and not isinstance(v, bool), v
    return D(fp(30, v)) if v >= 0 else D(fp(25, fp(30, -v)))

class Z:
    """a complex number"""
    __slots__ = ('h', 'parts')
    def __init__(self, h, parts=None): self.h = h; self.parts = parts

def cmk(a, b):
    a, b = num(a).h, num(b).h
    return Z(fp(13, a, b), (a, b))
def zre(z): return D(z.parts[0] if z.parts else fp(14, z.h))
def zim(z): return D(z.parts[1] if z.parts else fp(15, z.h))

class V(list):
    """a SIMD register: a list of complex lanes"""

class Ptr:
    __slots__ = ('b', 'o', 't')
    def __init__(self, b, o, t): self.b = b; self.o = o; self.t = t

class LV:
    """an lvalue in memory"""
    __slots__ = ('p',)
    def __init__(self, p): self.p = p

class IdxField:
    __slots__ = ('p', 'f')
    def __init__(self, p, f): self.p = p; self.f = f

class Ref:
    """a reference to a variable"""
    __slots__ = ('d', 'k')
    def __init__(self, d, k): self.d = d; self.k = k

OPS = dict(add=1, sub=2, mul=3, cnj=4, jx=5, v8x=6, w8x=7, h1x=8, h3x=9, hfx=10, hdx=11)

# ------------------------------------------------------------------ reading

def preprocess(text, defined=()):
    text = re.sub(r'/\*.*?\*/', lambda m: '\n' * m.group(0).count('\n'), text, flags=re.S)
    text = re.sub(r'//[^\n]*', '', text)
    out, stack = [], []              # stack of (active, some branch taken)
    for l in text.split('\n'):
        t = ' '.join(l.split())
        if t.startswith('#ifdef'): v = t.split()[1] in defined; stack.append((v, v))
        elif t.startswith('#ifndef'): v = t.split()[1] not in defined; stack.append((v, v))
        elif t in ('#if 0', '#if 1'): stack.append((t == '#if 1',) * 2)
        elif t.startswith('#if'): raise Exception(t)
        elif t in ('#elif 0', '#elif 1'):
            a, taken = stack.pop(); v = not taken and t == '#elif 1'; stack.append((v, taken or v))
        elif t.startswith('#else'):
            a, taken = stack.pop(); stack.append((not taken, True))
        elif t.startswith('#endif'): stack.pop()
        elif not all(a for a, _ in stack): pass
        elif t.startswith('#pragma'): out.append('@' + t[len('#pragma '):] + '@')
        elif t.startswith('#'): pass
        else: out.append(l)
    assert not stack
    return '\n'.join(out)

TOK = re.compile(r'\s*(@[^@]*@|[A-Za-z_]\w*|\d+\.\d*|0x[0-9a-fA-F]+|\d+|<<=|>>=|::|->|\+\+|--|<=|>=|==|!=|&&|\|\||<<|>>|[-+*/%]=|\.\.\.|[-+*/%<>=!&|^~?:;,.(){}\[\]])')

def tokenize(s):
    out, i = [], 0
    s = s.rstrip()
    while i < len(s):
        m = TOK.match(s, i)
        if not m: raise Exception('cannot read: ' + s[i:i + 60])
        out.append(m.group(1)); i = m.end()
    return out

QUAL = {'static', 'const', 'constexpr', 'inline', 'virtual', 'explicit', '__restrict', 'extern', 'typename', 'force_inline', 'volatile'}
TYPES = {'int', 'double', 'xmm', 'ymm', 'emm', 'cpx', 'complex_vector', 'const_complex_vector', 'weight_t', 'int64_t', 'bool', 'short', 'void',
         'double_vector', 'const_double_vector', 'complex_t', 'complex_ptr', 'index_ptr', 'const_index_vector', 'index_t', 'simd_array'}
TEMPL = {'fwdfft', 'invfft', 'fwdcore', 'invcore', 'fwdend', 'invend', 'fwdffts', 'invffts', 'fwdfftr', 'invfftr', 'scalepz', 'scalepz2',
         'twid', 'twidT', 'getpz3', 'setpz3', 'static_cast', 'unique_ptr'}
PREC = [['||'], ['&&'], ['|'], ['^'], ['&'], ['==', '!='], ['<', '>', '<=', '>='], ['<<', '>>'], ['+', '-'], ['*', '/', '%']]

class Parser:
    def __init__(self, toks): self.t = toks; self.i = 0
    def peek(self, k=0): return self.t[self.i + k] if self.i + k < len(self.t) else None
    def next(self): self.i += 1; return self.t[self.i - 1]
    def eat(self, x):
        if self.peek() == x: self.i += 1; return True
        return False
    def need(self, x):
        assert self.peek() == x, (x, self.t[self.i - 5:self.i + 8])
        self.i += 1
    def skip_parens(self):
        self.need('('); d = 1
        while d: d += {'(': 1, ')': -1}.get(self.next(), 0)

    # expressions
    def expr(self):
        e = self.assign()
        while self.eat(','): e = ('comma', e, self.assign())
        return e
    def assign(self):
        e = self.cond()
        if self.peek() in ('=', '+=', '-=', '*=', '/=', '>>=', '<<='):
            op = self.next(); r = self.assign()
            return ('assign', op, e, r)
        return e
    def cond(self):
        e = self.binary(0)
        if self.eat('?'):
            a = self.assign(); self.need(':'); b = self.cond()
            return ('cond', e, a, b)
        return e
    def binary(self, l):
        if l == len(PREC): return self.unary()
        e = self.binary(l + 1)
        while self.peek() in PREC[l]:
            op = self.next(); e = ('bin', op, e, self.binary(l + 1))
        return e
    def unary(self):
        p = self.peek()
        if p in ('!', '-', '+', '*', '&'): self.next(); return ('un', p, self.unary())
        if p in ('++', '--'): self.next(); return ('pre', p, self.unary())
        return self.postfix()
    def targs(self):
        self.need('<'); a = []
        while not self.eat('>'):
            a.append(self.binary(8)); self.eat(',')
        return a
    def args(self):
        self.need('('); a = []
        while not self.eat(')'):
            a.append(self.assign()); self.eat(',')
        return a
    def postfix(self):
        e = self.primary()
        while True:
            p = self.peek()
            if p == '(': e = ('call', e, self.args())
            elif p == '[': self.next(); i = self.expr(); self.need(']'); e = ('index', e, i)
            elif p in ('.', '->'): self.next(); e = ('member', e, self.next())
            elif p in ('++', '--'): self.next(); e = ('post', p, e)
            else: return e
    def primary(self):
        p = self.next()
        if p == '(':
            e = self.expr(); self.need(')'); return e
        if p == '{':
            a = []
            while not self.eat('}'): a.append(self.assign()); self.eat(',')
            return ('init', a)
        if re.fullmatch(r'0x\w+|\d+', p): return ('int', int(p, 0))
        if re.fullmatch(r'\d+\.\d*', p):
            assert float(p) == int(float(p)); return ('dbl', int(float(p)))
        if p == 'new': n = self.next(); return ('new', n, self.args())
        if p in ('false', 'true'): return ('int', int(p == 'true'))
        assert re.fullmatch(r'\w+', p), (p, self.t[self.i - 6:self.i + 6])
        path = [(p, self.targ_of(p))]
        while self.eat('::'):
            q = self.next(); path.append((q, self.targ_of(q)))
        return ('name', path)
    def targ_of(self, n):
        if n in ('static_cast', 'unique_ptr'):
            self.need('<'); t = []
            while not self.eat('>'): t.append(self.next())
            return [('type', t)]
        return self.targs() if n in TEMPL and self.peek() == '<' else None

    # statements
    def is_decl(self):
        i = self.i
        while self.t[i] in QUAL: i += 1
        if self.t[i] not in TYPES or self.t[i] == 'void': return False
        if i > self.i: return True
        return re.fullmatch(r'\w+', self.t[i + 1]) is not None or self.t[i + 1] == '*'
    def stmt(self):
        p = self.peek()
        if p[0] == '@':
            k = self.next()[1:-1]
            return ('pragma', re.sub(r'firstprivate\([^)]*\)|schedule\(static\)', '', k).split(), self.stmt())
        if p == '{':
            self.next(); out = []
            while not self.eat('}'): out.append(self.stmt())
            return ('block', out)
        if p == ';': self.next(); return ('block', [])
        if p == 'if':
            self.next(); self.need('('); c = self.expr(); self.need(')')
            a = self.stmt(); b = self.stmt() if self.eat('else') else ('block', [])
            return ('if', c, a, b)
        if p == 'while':
            self.next(); self.need('('); c = self.expr(); self.need(')')
            return ('for', ('block', []), c, None, self.stmt())
        if p == 'for':
            self.next(); self.need('(')
            a = self.stmt(); c = self.expr(); self.need(';')
            u = None if self.peek() == ')' else self.expr(); self.need(')')
            return ('for', a, c, u, self.stmt())
        if p == 'switch':
            self.next(); self.need('('); c = self.expr(); self.need(')'); self.need('{')
            out = []
            while not self.eat('}'):
                if self.eat('case'): out.append(('case', self.binary(0))); self.need(':')
                elif self.peek() == 'default': self.next(); self.need(':'); out.append(('case', None))
                else: out.append(self.stmt())
            return ('switch', c, out)
        if p == 'try':
            self.next(); a = self.stmt(); assert self.next() == 'catch'; self.need('('); self.need('...'); self.need(')')
            return ('try', a, self.stmt())
        if p == 'throw': self.next(); self.need(';'); return ('throw',)
        if p == 'break': self.next(); self.need(';'); return ('break',)
        if p == 'return':
            self.next()
            e = None if self.peek() == ';' else self.expr()
            self.need(';'); return ('return', e)
        if p == 'assert': self.next(); self.skip_parens(); self.need(';'); return ('block', [])
        if self.is_decl():
            while self.peek() in QUAL: self.next()
            ty = self.next(); out = []
            if self.eat('*'): ty += '*'
            while True:
                n = self.next(); e = self.assign() if self.eat('=') else None
                out.append(('decl', ty, n, e))
                if not self.eat(','): break
            self.need(';')
            return ('block', out)
        e = self.expr(); self.need(';')
        return ('expr', e)

    # declarations
    def params(self):
        """(type, name, by reference)"""
        self.need('('); out = []
        while not self.eat(')'):
            toks, d = [], 0
            while d or self.peek() not in (',', ')'):
                t = self.next(); d += {'<': 1, '>': -1}.get(t, 0); toks.append(t)
            self.eat(',')
            toks = [t for t in toks if t not in QUAL]
            out.append((toks[0], toks[-1], '&' in toks and toks[0] != 'complex_t'))
        return out

class Scope:
    def __init__(self, name):
        self.name = name; self.funs = {}; self.structs = {}; self.classes = {}; self.consts = {}; self.using = []; self.alias = {}

class Class:
    def __init__(self, name, ns):
        self.name = name; self.ns = ns; self.fields = []; self.meth = {}; self.ctors = {}; self.dtor = None; self.consts = {}

class Program:
    """all the namespaces"""
    def __init__(self, defined=()):
        self.ns = {'': Scope('')}; self.defined = defined
    def scope(self, n):
        if n not in self.ns: self.ns[n] = Scope(n)
        return self.ns[n]
    def read(self, path, top='', cut=None):
        s = open(path).read()
        if cut is not None: s = cut(s)
        p = Parser(tokenize(preprocess(s, self.defined)))
        while p.peek() is not None: self.decl(p, top)
    def decl(self, p, ns):
        S = self.scope(ns); t = p.peek()
        if t == ';': p.next(); return
        if t == 'namespace':
            p.next(); n = p.next()
            if p.eat('='): S.alias[n] = p.next(); p.need(';'); return
            p.need('{')
            inner = '' if n in ('OTFFT_NAMESPACE', 'OTFFT') else n
            while not p.eat('}'): self.decl(p, inner)
            return
        if t == 'using':
            p.next()
            if p.eat('namespace'): S.using.append(p.next()); p.need(';')
            else:
                while p.next() != ';': pass
            return
        if t == 'typedef' or t == 'extern':
            d = 0
            while True:
                x = p.next(); d += {'{': 1, '}': -1}.get(x, 0)
                if x == ';' and d == 0: return
        tp = None
        if t == 'template':
            p.next(); p.need('<'); tp = []
            while not p.eat('>'):
                p.next(); n = p.next(); dflt = p.primary() if p.eat('=') else None
                tp.append((n, dflt)); p.eat(',')
        if p.peek() in ('struct', 'class'):
            p.next(); n = p.next()
            if p.eat(';'): return                               # forward declaration
            if tp is not None:
                args = p.targs() if p.peek() == '<' else [('name', [(a, None)]) for a, _ in tp]
                C = Class(n, ns); C.tp = tp; C.args = args
                S.structs.setdefault(n, []).append(C)
            else:
                C = Class(n, ns); S.classes[n] = C
            if p.eat(':'):
                while p.peek() != '{': p.next()
            p.need('{')
            while not p.eat('}'): self.member(p, C)
            p.need(';'); return
        # constants and functions
        quals = []
        while p.peek() in QUAL: quals.append(p.next())
        ty = p.next()
        if ty == 'std': p.need('::'); ty = p.next(); p.targ_of(ty)
        if p.peek() == '::' and ty in S.classes:                # constructor or destructor
            p.next(); d = p.eat('~'); n = p.next(); assert n == ty
            self.callable(p, S.classes[ty], 'dtor' if d else 'ctor', n); return
        p.eat('*')
        n = p.next()
        if n == 'operator': n += p.next()
        if p.eat('::'):
            C = S.classes[n]; n = p.next(); self.callable(p, C, 'meth', n); return
        if p.eat('='):
            S.consts[n] = p.assign(); p.need(';'); return
        if tp is not None:                                      # template functions: known ones only (twid, modq, ...)
            p.params(); self.body(p); return
        self.callable(p, S, 'fun', n)
    def member(self, p, C):
        t = p.peek()
        if t in ('public', 'private', 'protected'): p.next(); p.need(':'); return
        if t == 'typedef':
            while p.next() != ';': pass
            return
        if t == '~': p.next(); n = p.next(); self.callable(p, C, 'dtor', n); return
        if t == C.name and p.peek(1) == '(': p.next(); self.callable(p, C, 'ctor', t); return
        static = False
        while p.peek() in QUAL: static |= p.next() == 'static'
        ty = p.next()
        if ty == 'std': p.need('::'); ty = p.next()
        el = None
        if ty in ('simd_array', 'unique_ptr'):
            p.need('<'); el = p.next(); p.need('>')
        while p.peek() in ('*', '__restrict'): ty += p.next().replace('__restrict', '')
        n = p.next()
        if n == 'operator':
            n += p.next()
            if n == 'operator(': p.need(')'); n = 'operator()'
            self.callable(p, C, 'meth', n); return
        if n == '(':                                            # conversion operator
            raise Exception('?')
        if p.peek() == '(': self.callable(p, C, 'meth', n); return
        if p.eat('='):
            C.consts[n] = p.assign(); p.need(';'); return
        C.fields.append((n, ty, el))
        while p.eat(','): C.fields.append((p.next(), ty, el))
        p.need(';')
    def body(self, p):
        """skips qualifiers; statements of the body, or None for a declaration"""
        while p.peek() in ('const', 'noexcept', 'override', 'force_inline', 'NOEXCEPT'): p.next()
        if p.eat('='): p.next()
        if p.eat(';'): return None
        if p.peek() == '{': return p.stmt()
        raise Exception(p.t[p.i - 5:p.i + 5])
    def callable(self, p, C, kind, n):
        ps = p.params()
        while p.peek() in ('const', 'noexcept', 'override'): p.next()
        inits = {}
        if kind == 'ctor' and p.eat(':'):
            while True:
                f = p.next(); inits[f] = p.args()
                if not p.eat(','): break
        b = self.body(p)
        if b is None: return
        if kind == 'dtor': C.dtor = (ps, b)
        elif kind == 'ctor': assert len(ps) not in C.ctors, n; C.ctors[len(ps)] = (ps, inits, b)
        elif kind == 'meth': assert n not in C.meth, n; C.meth[n] = (ps, b)
        else:
            key = n
            assert key not in C.funs, (n, C.name)
            C.funs[key] = (ps, b)

# ------------------------------------------------------------------ evaluation

class Obj:
    """an object of a class, or of an instance of a class template (then tv has the template arguments)"""
    def __init__(self, cls, tv=None): self.cls = cls; self.f = {}; self.tv = tv; self.block = None
class SimdArray:
    def __init__(self, el): self.el = el; self.p = None
class Unique:
    def __init__(self): self.o = None

class Fr:
    __slots__ = ('v', 'this', 'ns')
    def __init__(self, v, this, ns): self.v = v; self.this = this; self.ns = ns

class Ret(Exception):
    pass
BREAK = object()
MODES = ('scale_1', 'scale_unitary', 'scale_length')

class Machine:
    def __init__(self, prog, thr, fail=0, length=0):
        self.P = prog; self.thr = thr; self.fail = fail
        self.heap = {}; self.size = {}; self.nextb = 10; self.mallocs = 0
        for b in range(1, 5):
            for i in range(length):
                a = fp(40, b, i)
                self.heap[(b, i)] = Z(a) if b <= 2 else cmk(D(a), 0)
        self.ev = []; self.par = False; self.task = None; self.pending = []
        self.steps = 0
        self.cache = {}

    # memory and trace
    def emit(self, tasks): self.ev.append(('P', tasks))
    def load(self, p):
        if not isinstance(p, Ptr): raise UB('null')
        v = self.heap.get((p.b, p.o))
        if v is None: raise UB('load %d %d' % (p.b, p.o))
        return v
    def store(self, p, v):
        if not isinstance(p, Ptr) or (p.b, p.o) not in self.heap: raise UB('store')
        if p.t == 'i': self.heap[(p.b, p.o)] = v; return
        if isinstance(v, V): assert len(v) == 1; v = v[0]
        if not isinstance(v, Z): v = cmk(num(v), 0)
        self.heap[(p.b, p.o)] = v
        s = (p.b, p.o, v.h)
        if self.task is not None: self.task.append(s)
        else:
            assert not self.par
            self.emit([[s]])
    def malloc(self, n):
        self.mallocs += 1
        if self.mallocs == self.fail: self.ev.append(('M', n, None)); raise BadAlloc()
        b = self.nextb; self.nextb += 1
        self.ev.append(('M', n, b)); self.size[b] = n
        for i in range(n): self.heap[(b, i)] = None
        return b
    def free(self, b):
        self.ev.append(('F', b))
        for i in range(self.size.pop(b)): del self.heap[(b, i)]

    def rv(self, x):
        """rvalue"""
        if isinstance(x, LV):
            c = self.load(x.p)
            return zre(c) if x.p.t == 'd' else c
        if isinstance(x, IdxField):
            c = self.heap.get((x.p.b, x.p.o))
            if not c or x.f not in c: raise UB('index')
            return c[x.f]
        return x

    # names
    def search(self, ns, f, seen=None):
        """first result of f over the namespace, its using directives and the global namespace"""
        seen = seen if seen is not None else set()
        if ns in seen or ns not in self.P.ns: return None
        seen.add(ns)
        r = f(self.P.ns[ns])
        if r is not None: return r
        for u in self.P.ns[ns].using:
            r = self.search(u, f, seen)
            if r is not None: return r
        return self.search('', f, seen) if ns else None
    def threshold(self, where, n):
        return self.thr.get((where, n))
    def lookup(self, fr, n):
        v = fr.v
        if n in v:
            x = v[n]
            return x.d[x.k] if isinstance(x, Ref) else x
        o = fr.this
        if o is not None:
            if n in o.f: return o.f[n]
            if o.tv is not None and n in o.tv: return o.tv[n]
            if n in o.cls.consts:
                t = self.threshold(o.cls.name, n)
                if t is not None: return t
                return self.rv(self.ev_(o.cls.consts[n], Fr({}, o, o.cls.ns)))
        if n in MODES: return n
        if n == 'M_PI': return D(fp(29))
        def f(S):
            if n in S.consts:
                t = self.threshold(S.name, n)
                if t is not None: return t
                return self.rv(self.ev_(S.consts[n], Fr({}, None, S.name)))
        r = self.search(fr.ns, f)
        assert r is not None, ('unknown name', n)
        return r
    def setvar(self, fr, n, x):
        if n in fr.v:
            y = fr.v[n]
            if isinstance(y, Ref): y.d[y.k] = x
            else: fr.v[n] = x
        else:
            assert n in fr.this.f, n
            fr.this.f[n] = x
    def nsname(self, fr, n):
        a = self.search(fr.ns, lambda S: S.alias.get(n))
        return a or n

    # templates
    def instance(self, ns, n, args):
        key = (ns, n, tuple(args))
        if key in self.cache: return self.cache[key]
        cands = self.search(ns, lambda S: S.structs.get(n))
        assert cands, (ns, n)
        best = None
        for C in cands:
            a = list(args)
            while len(a) < len(C.args): a.append(C.tp[len(a)][1][1])
            tv, lit, ok = {}, 0, True
            for pat, val in zip(C.args, a):
                if pat[0] == 'int': ok &= pat[1] == val; lit += 1
                else: tv[pat[1][0][0]] = val
            if ok and (best is None or lit > best[0]): best = (lit, C, tv)
        _, C, tv = best
        o = Obj(C, tv)
        for k, e in C.consts.items(): o.tv[k] = self.rv(self.ev_(e, Fr({}, o, C.ns)))
        self.cache[key] = o
        return o

    # expressions
    def ev_(self, e, fr):
        return getattr(self, 'e_' + e[0])(e, fr)
    def val(self, e, fr): return self.rv(self.ev_(e, fr))
    def e_int(self, e, fr): return e[1]
    def e_dbl(self, e, fr): return num(e[1])
    def e_init(self, e, fr):
        a, b = [self.val(x, fr) for x in e[1]]
        return V([cmk(a, b)])
    def e_comma(self, e, fr): self.ev_(e[1], fr); return self.ev_(e[2], fr)
    def e_cond(self, e, fr): return self.ev_(e[2] if self.val(e[1], fr) else e[3], fr)
    def e_name(self, e, fr):
        path = e[1]
        assert len(path) == 1 and path[0][1] is None, path
        return self.lookup(fr, path[0][0])
    def e_index(self, e, fr):
        p = self.val(e[1], fr)
        if not isinstance(p, Ptr): raise UB('null')
        return LV(Ptr(p.b, p.o + self.val(e[2], fr), p.t))
    def e_member(self, e, fr):
        x = self.ev_(e[1], fr); f = e[2]
        if isinstance(x, LV) and x.p.t == 'i': return IdxField(x.p, f)
        x = self.rv(x)
        if isinstance(x, Z): return {'Re': zre, 'Im': zim}[f](x)
        raise Exception(e)
    def chk(self, n):
        if isinstance(n, int) and not -2**31 <= n < 2**31: raise UB('overflow')
        return n
    def e_bin(self, e, fr):
        op = e[1]
        if op == '&&': return int(bool(self.val(e[2], fr)) and bool(self.val(e[3], fr)))
        if op == '||': return int(bool(self.val(e[2], fr)) or bool(self.val(e[3], fr)))
        return self.arith(op, self.val(e[2], fr), self.val(e[3], fr))
    def arith(self, op, a, b):
        if isinstance(a, Ptr):
            if op == '+': return Ptr(a.b, a.o + b, a.t)
            raise Exception(op)
        if isinstance(a, int) and isinstance(b, int):
            if op in ('/', '%'):
                q = abs(a) // abs(b); q = q if (a < 0) == (b < 0) else -q
                return q if op == '/' else a - b * q
            f = {'+': a.__add__, '-': a.__sub__, '*': a.__mul__, '<<': a.__lshift__, '>>': a.__rshift__, '&': a.__and__, '|': a.__or__,
                 '^': a.__xor__, '<': a.__lt__, '>': a.__gt__, '<=': a.__le__, '>=': a.__ge__, '==': a.__eq__, '!=': a.__ne__}[op]
            r = f(b)
            return int(r) if isinstance(r, bool) else r
        if isinstance(a, V) and isinstance(b, V):
            return V(Z(fp({'+': 1, '*': 3}[op], x.h, y.h)) for x, y in zip(a, b))
        if isinstance(a, Z):
            if isinstance(b, Z): assert op == '*'; return Z(fp(16, a.h, b.h))
            assert op == '/'
            return cmk(self.arith('/', zre(a), b), self.arith('/', zim(a), b))
        if isinstance(a, (D, int)) and isinstance(b, (D, int)):
            return D(fp({'+': 21, '-': 22, '*': 23, '/': 24}[op], num(a).h, num(b).h))
        raise Exception((op, a, b))
    def e_un(self, e, fr):
        if e[1] == '&':
            x = self.ev_(e[2], fr); assert isinstance(x, SimdArray)
            return Ptr(x.p, 0, x.el) if x.p is not None else 0
        x = self.val(e[2], fr)
        if e[1] == '*': return LV(x)
        if e[1] == '!': return int(not x)
        if e[1] == '-': return -x if isinstance(x, int) else D(fp(25, x.h))
        return x
    def e_post(self, e, fr):
        n = e[2][1][0][0]; x = self.lookup(fr, n)
        self.setvar(fr, n, self.chk(x + (1 if e[1] == '++' else -1)))
        return x
    e_pre = e_post
    def e_assign(self, e, fr):
        op, l, r = e[1], e[2], e[3]
        v = self.val(r, fr)
        if l[0] == 'name':
            n = l[1][0][0]
            cur = None
            if op != '=': v = self.arith(op[:-1], self.lookup(fr, n), v)
            elif (n in fr.v and isinstance(fr.v[n], Unique)) or (n not in fr.v and isinstance(fr.this.f.get(n), Unique)):
                cur = self.lookup(fr, n)
                new = v.o; v.o = None
                self.reset(cur); cur.o = new
                return cur
            if isinstance(v, int): self.chk(v)
            self.setvar(fr, n, v)
            return v
        assert op == '='
        x = self.ev_(l, fr)
        if isinstance(x, IdxField):
            assert 0 <= v < 32768
            if (x.p.b, x.p.o) not in self.heap: raise UB('store')
            c = self.heap[(x.p.b, x.p.o)] or {}
            c[x.f] = v; self.heap[(x.p.b, x.p.o)] = c
            return v
        assert isinstance(x, LV), l
        self.store(x.p, v)
        return x
    def e_new(self, e, fr):
        C = self.search(fr.ns, lambda S: S.classes.get(e[1]))
        b = self.malloc(0)
        o = self.construct(C, [self.val(a, fr) for a in e[2]])
        o.block = b
        return o
    def e_call(self, e, fr):
        c, args = e[1], e[2]
        if c[0] == 'call':                                   # f<...>()(args)
            o = self.ev_(c, fr)
            return self.method(o, 'operator()', args, fr)
        if c[0] == 'member':
            return self.member_call(c, args, fr)
        assert c[0] == 'name', c
        path = c[1]
        n, ta = path[-1]
        if len(path) == 1:
            if n == 'unique_ptr': u = Unique(); u.o = self.val(args[0], fr); return u
            if n == 'static_cast': return self.val(args[0], fr)
            o = fr.this
            if o is not None and n in o.cls.meth: return self.method(o, n, args, fr)
            if ta is not None and n in ('fwdfft', 'invfft', 'fwdcore', 'invcore', 'fwdend', 'invend', 'fwdffts', 'invffts', 'fwdfftr', 'invfftr'):
                assert not args
                return self.instance(fr.ns, n, [self.val(a, fr) for a in ta])
            f = self.search(fr.ns, lambda S: (S.name, S.funs[n]) if n in S.funs else None)
            if f: return self.invoke(f[1], args, fr, None, f[0])
            b = getattr(self, 'b_' + n, None)
            if b is None:
                m = re.fullmatch(r'(add|sub|mul|cnj|jx|v8x|w8x|h1x|h3x|hfx|hdx)(pz|pz2|ez4)', n)
                if m:
                    vs = [self.val(a, fr) for a in args]
                    assert all(isinstance(v, V) and len(v) == {'pz': 1, 'pz2': 2, 'ez4': 4}[m.group(2)] for v in vs), (n, vs)
                    k = OPS[m.group(1)]
                    return V(Z(fp(k, *[z.h for z in zs])) for zs in zip(*vs))
                raise Exception('unknown function ' + n)
            if ta is not None: return b([self.val(a, fr) for a in ta], *[self.ev_(a, fr) for a in args])
            return b(*[self.ev_(a, fr) for a in args])
        # qualified
        ns = path[0][0]
        if ns == 'std': return self.e_call(('call', ('name', path[1:]), args), fr)
        if path[0][1] is not None:                           # fwdffts<..>::f(...)
            o = self.instance(fr.ns, ns, [self.val(a, fr) for a in path[0][1]])
            return self.method(o, n, args, fr)
        ns = self.nsname(fr, ns)
        if len(path) == 3:
            o = self.instance(ns, path[1][0], [self.val(a, fr) for a in path[1][1]])
            return self.method(o, n, args, fr)
        if ta is not None: return self.instance(ns, n, [self.val(a, fr) for a in ta])
        return self.invoke(self.P.ns[ns].funs[n], args, fr, None, ns)
    def member_call(self, c, args, fr):
        x = self.ev_(c[1], fr); n = c[2]
        if isinstance(x, SimdArray):
            if n == 'setup': return self.sa_setup(x, self.val(args[0], fr))
            if n == 'destroy': return self.sa_destroy(x)
        if isinstance(x, Unique):
            if n == 'reset': return self.reset(x)
            if x.o is None: raise UB('null object')
            x = x.o
        assert isinstance(x, Obj), (c, x)
        return self.method(x, n, args, fr)
    def method(self, o, n, args, fr):
        return self.invoke(o.cls.meth[n], args, fr, o, o.cls.ns)
    def invoke(self, f, args, fr, this, ns):
        ps, body = f
        assert len(ps) == len(args), (ps, args)
        v = {}
        for (ty, n, ref), a in zip(ps, args):
            if ref and a[0] == 'name' and not isinstance(self.lookup(fr, a[1][0][0]), (SimdArray, Obj)):
                k = a[1][0][0]
                if k in fr.v: v[n] = fr.v[k] if isinstance(fr.v[k], Ref) else Ref(fr.v, k)
                else: v[n] = Ref(fr.this.f, k)
            else:
                x = self.ev_(a, fr)
                v[n] = self.conv(ty, self.rv(x))
        return self.run_body(body, Fr(v, this, ns))
    def run_body(self, body, fr):
        r = self.st(body, fr)
        return r[1] if isinstance(r, tuple) else None
    def conv(self, ty, x):
        if ty == 'double' and isinstance(x, int): return num(x)
        if ty in ('int', 'short', 'bool'): assert isinstance(x, int) or x in MODES, (ty, x)
        if ty == 'bool': return int(bool(x))
        if ty == 'int' and isinstance(x, int): self.chk(x)
        return x

    # builtins
    def cell(self, x):
        x = self.rv(x)
        if isinstance(x, Ptr): x = self.load(x)
        return x
    def b_getpz(self, x):
        if isinstance(x, Ptr) and x.t == 'd':
            return V([cmk(zre(self.load(x)), zre(self.load(Ptr(x.b, x.o + 1, 'd'))))])
        return V([self.cell(x)])
    def vload(self, p, k): return V(self.load(Ptr(p.b, p.o + i, p.t)) for i in range(k))
    def b_getpz2(self, p): return self.vload(p, 2)
    def b_getez4(self, p): return self.vload(p, 4)
    def b_setpz(self, x, v):
        if isinstance(x, Ptr) and x.t == 'd':
            self.store(x, zre(v[0])); self.store(Ptr(x.b, x.o + 1, 'd'), zim(v[0])); return
        assert len(v) == 1
        self.store(x.p if isinstance(x, LV) else x, v[0])
    def vstore(self, p, v, k):
        assert len(v) == k
        for i in range(k): self.store(Ptr(p.b, p.o + i, p.t), v[i])
    def b_setpz2(self, p, v): self.vstore(p, v, 2)
    def b_setez4(self, p, v): self.vstore(p, v, 4)
    def b_duppz2(self, x): return V([self.cell(x)] * 2) if not isinstance(x, V) else V(list(x) * 2)
    b_duppz3 = b_duppz2
    def b_dupez5(self, x): return V([self.cell(x)] * 4)
    def b_catlo(self, a, b): return V([a[0], b[0]])
    def b_cathi(self, a, b): return V([a[1], b[1]])
    def b_conj(self, z): return Z(fp(4, self.rv(z).h))
    def b_zeroupper(self): pass
    def b_cmplx(self, a, b): return V([cmk(self.rv(a), self.rv(b))])
    def b_complex_t(self, a, b): return cmk(self.rv(a), self.rv(b))
    def b_double(self, a): return num(self.rv(a))
    def b_expj(self, t): return Z(fp(18, num(self.rv(t)).h))
    def b_cos(self, t): return D(fp(27, num(self.rv(t)).h))
    def b_sin(self, t): return D(fp(28, num(self.rv(t)).h))
    def b_sqrt(self, t): return D(fp(26, num(self.rv(t)).h))
    def b_mulpd(self, a, b):
        assert len(a) == len(b) == 1
        x, y = a[0], b[0]
        if x.parts and x.parts[0] == x.parts[1]: return V([Z(fp(12, x.parts[0], y.h))])   # scl
        return V([Z(fp(17, x.h, y.h))])
    def b_haddpz(self, a, b):
        s = lambda z: D(fp(21, zre(z).h, zim(z).h))
        return V([cmk(s(a[0]), s(b[0]))])
    # src/otfft_misc.h:334-343, 808-817; mysqrt(N) is written cos(sqrt(N)) on both sides
    def b_scalepz(self, ta, v):
        N, mode = ta
        if mode == 'scale_1': return v
        d = fp(30, N)
        if mode == 'scale_unitary': d = fp(27, fp(26, d))
        f = fp(24, fp(30, 1), d)
        return V(Z(fp(12, f, z.h)) for z in v)
    b_scalepz2 = b_scalepz
    # src/otfft_misc.h:187-202
    def b_twid(self, ta, W, p): r, N, k = ta; return Ptr(W.b, W.o + p + (k - 1) * (N // r), W.t)
    def b_twidT(self, ta, W, p): r, N, k = ta; return Ptr(W.b, W.o + r * p + N + k, W.t)

    # objects (inc/otfft_complex.h:258-282, std::unique_ptr)
    def sa_setup(self, a, n):
        if a.p is not None: self.free(a.p)
        a.p = None
        if n < 0: raise BadAlloc()
        a.p = self.malloc(n)
    def sa_destroy(self, a):
        if a.p is not None: self.free(a.p)
        a.p = None
    def reset(self, u):
        o, u.o = u.o, None
        if o is not None:
            self.destruct(o)
            self.free(o.block)
    def construct(self, C, args):
        if C.ctors: ps, inits, body = C.ctors[len(args)]
        else: ps, inits, body = [], {}, ('block', [])
        o = Obj(C)
        v = {n: self.conv(ty, a) for (ty, n, _), a in zip(ps, args)}
        fr = Fr(v, o, C.ns)
        done = []
        try:
            for n, ty, el in C.fields:
                init = [self.val(a, fr) for a in inits.get(n, [])] if n not in ('',) else []
                if ty == 'simd_array':
                    a = SimdArray({'complex_t': 'z', 'double': 'd', 'index_t': 'i'}[el])
                    o.f[n] = a
                    if init: self.sa_setup(a, init[0])
                elif ty == 'unique_ptr': o.f[n] = Unique()
                else:
                    K = self.search(C.ns, lambda S: S.classes.get(ty))
                    if K and not ty.endswith('*'): o.f[n] = self.construct(K, init)
                    elif n in inits: o.f[n] = init[0]
                    else: o.f[n] = None
                    if n in inits and inits[n] and inits[n][0][0] == 'un':
                        pass
                done.append(n)
            self.run_body(body, fr)
        except BadAlloc:
            for n in reversed(done): self.destroy_field(o, n)
            raise
        return o
    def destroy_field(self, o, n):
        x = o.f[n]
        if isinstance(x, SimdArray): self.sa_destroy(x)
        elif isinstance(x, Unique): self.reset(x)
        elif isinstance(x, Obj): self.destruct(x)
    def destruct(self, o):
        if o.cls.dtor: self.run_body(o.cls.dtor[1], Fr({}, o, o.cls.ns))
        for n, _, _ in reversed(o.cls.fields): self.destroy_field(o, n)

    # statements: None, BREAK or ('ret', value)
    def st(self, s, fr):
        k = s[0]
        if k == 'block':
            for t in s[1]:
                r = self.st(t, fr)
                if r is not None: return r
        elif k == 'expr': self.ev_(s[1], fr)
        elif k == 'decl':
            x = self.val(s[3], fr) if s[3] is not None else None
            fr.v[s[2]] = self.conv(s[1], x) if x is not None else None
        elif k == 'if': return self.st(s[2] if self.val(s[1], fr) else s[3], fr)
        elif k == 'for':
            for _ in self.loop(s, fr):
                r = self.st(s[4], fr)
                if r is BREAK: break
                if r is not None: return r
        elif k == 'return': return ('ret', self.val(s[1], fr) if s[1] is not None else None)
        elif k == 'break': return BREAK
        elif k == 'throw': raise self.exc
        elif k == 'try':
            try: return self.st(s[1], fr)
            except BadAlloc as e:
                old = getattr(self, 'exc', None); self.exc = e
                self.st(s[2], fr)
                self.exc = old
        elif k == 'switch':
            v = self.val(s[1], fr); on = False
            labels = [t for t in s[2] if t[0] == 'case']
            hit = [t for t in labels if t[1] is not None and self.val(t[1], fr) == v] or [t for t in labels if t[1] is None]
            for t in s[2]:
                if t[0] == 'case': on = on or t in hit
                elif on:
                    r = self.st(t, fr)
                    if r is BREAK: return None
                    if r is not None: return r
        elif k == 'pragma': return self.pragma(s[1], s[2], fr)
        else: raise Exception(s)
    def loop(self, s, fr):
        self.st(s[1], fr)
        while self.val(s[2], fr):
            yield
            if s[3] is not None: self.ev_(s[3], fr)
    def tasks(self, s, fr):
        assert s[0] == 'for'
        out = []
        for _ in self.loop(s, fr):
            self.task = []
            r = self.st(s[4], fr); assert r is None
            out.append(self.task); self.task = None
        return out
    def phase(self, ts, nowait):
        ts = self.pending + ts
        self.pending = ts if nowait else []
        if not nowait: self.emit(ts)
    def pragma(self, w, s, fr):
        assert w[0] == 'omp'
        w = w[1:]
        if self.task is not None:                            # inside an iteration: nested regions have one thread
            assert w != ['single']
            return self.st(s, fr)
        if w[0] == 'parallel':
            assert not self.par
            self.par = True
            if w[1:] == ['for']: self.phase(self.tasks(s, fr), False); r = None
            else:
                assert w[1:] == [], w
                r = self.st(s, fr)
                if self.pending: self.phase([], False)
            self.par = False
            return r
        if not self.par: return self.st(s, fr)               # orphaned construct: one thread
        if w[0] == 'for':
            assert w[1:] in ([], ['nowait']), w
            self.phase(self.tasks(s, fr), w[1:] == ['nowait'])
        elif w == ['single']:
            self.task = []
            self.st(s, fr)
            t = self.task; self.task = None
            self.phase([t], False)
        else: raise Exception(w)
