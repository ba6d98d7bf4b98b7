#!/usr/bin/env python3
"""Does the Lean model do what the C++ text says?

Both sides are executed symbolically on the same command list and their traces compared: requests for memory and
releases in order, and between them every store (location and fingerprint of the stored term) phase by phase, parallel
iterations one by one. The model side is the text of Verif/Model itself, read by Lean with a symbolic instance of its
arithmetic classes (Main.lean.in); the C++ side is /repo read by cpp.py. Nothing is compiled or run from /repo.

usage: trace.py [quick|full]
       trace.py selftest COUNT [SEED]     edits one token of the C++ text (in memory) at a time: is the difference seen?"""
import os, subprocess, sys, re, collections, itertools, random, time
HERE = os.path.dirname(os.path.abspath(__file__))
sys.path.insert(0, HERE)
sys.setrecursionlimit(100000)
import cpp
LEAN = os.path.join(HERE, '..', '..', 'lean')
SRC = '/repo/src/'
KINDS = 'dif4 dif8 dif16 dit4 dit8 dit16'.split()

# ------------------------------------------------------------------ the two programs

def lean_text():
    mods = 'Mem Arith Items Act Butterfly Stockham Tables MixedRadix SixStep Objects Real Bluestein Api'.split()
    imports, body = {'Std.Data.HashMap'}, ''
    for m in mods:
        s = open(os.path.join(LEAN, 'Verif', 'Model', m + '.lean')).read()
        imports |= {i for i in re.findall(r'^import (\S+)', s, re.M) if not i.startswith('Verif')}
        s = re.sub(r'^import .*\n', '', s, flags=re.M).replace('noncomputable section\n', '').replace('noncomputable ', '')
        if m == 'Arith':          # mysqrt (a fixpoint) becomes a name for itself; the exact instance is dropped
            a, b = s.index('open Classical in'), s.index('/-- `scalepz<N,mode>`')
            s = s[:a] + 'def mysqrt {F : Type} [DArith F] (a : F) : F := fcos (fsqrt a)\n\n' + s[b:]
            s = s[:s.index('/-! ### The exact instance')] + 'end OTFFT\n'
        body += s + '\n'
    return ''.join('import %s\n' % i for i in sorted(imports)) + body + open(os.path.join(HERE, 'Main.lean.in')).read()

def cpp_program(defined=(), P=None):
    P = P or cpp.Program(defined)
    def misc(s):                  # src/otfft_misc.h:98-223; the vector primitives are builtins of cpp.py
        a = s.index('// FFT Weight Initialize Routine')
        return s[s.index('namespace OTFFT_MISC', a):s.index('#if defined(__SSE2__) && defined(USE_INTRINSIC)')]
    def algo(s): return s[:s.index('void unique_ptr_deleter(ComplexFFT')] + '}'
    P.read(SRC + 'otfft_misc.h', cut=misc)
    for k in KINDS: P.read(SRC + 'otfft_avx%somp.h' % k); P.read(SRC + 'otfft_avx%s.h' % k)
    for f in 'sixstepsq eightstep sixstep mixedradix base'.split(): P.read(SRC + 'otfft_%s.h' % f)
    for k in KINDS + ['sixstep', 'mixed']: P.read(SRC + 'otfft_algo_%s.cpp' % k)
    P.read(SRC + 'otfft_algo.cpp', cut=algo)
    return P

THR = ['w'] + KINDS + ['mixed', 'six', 'eight1', 'eight2', 'api', 'apiW']
def thresholds(v):
    t = dict(zip(THR, v)); d = {}
    d[('OTFFT_MISC', 'OMP_THRESHOLD_W')] = t['w']
    for k in KINDS: d[('OTFFT_AVX' + k.upper(), 'OMP_THRESHOLD')] = t[k]
    d[('OTFFT_MixedRadix', 'OMP_THRESHOLD')] = t['mixed']
    d[('OTFFT_SixStep', 'OMP_THRESHOLD')] = t['six']
    d[('OTFFT_EightStep', 'OMP_THRESHOLD1')] = t['eight1']
    d[('OTFFT_EightStep', 'OMP_THRESHOLD2')] = t['eight2']
    for c in ('RFFT', 'DCT0', 'Bluestein'):
        d[(c, 'OMP_THRESHOLD')] = t['api']; d[(c, 'OMP_THRESHOLD_W')] = t['apiW']
    return d

CLS = dict(complex='FFT', real='RFFT', dct='DCT', bluestein='Bluestein', fft0='FFT0', dct0='DCT0')

def run_cpp(P, line):
    thr, cls, length, fail, n, *ops = line.split()
    m = cpp.Machine(P, thresholds([int(x) for x in thr.split(',')]), int(fail), int(length))
    n = int(n)
    x, y, d, e = [cpp.Ptr(b, 0, t) for b, t in ((1, 'z'), (2, 'z'), (3, 'd'), (4, 'd'))]
    const = lambda p: ('value', p)
    m.e_value = lambda e, fr: e[1]
    fr = cpp.Fr({}, None, '')
    def call(o, name, args): m.method(o, name, [const(a) for a in args], fr)
    try:
        if cls in CLS:
            try: o = m.construct(P.ns[''].classes[CLS[cls]], [n])
            except cpp.BadAlloc: o = None
            ok = o is not None
            if o is not None:
                for w in ops:
                    if re.fullmatch(r'-?\d+', w):
                        try: call(o, 'setup', [int(w)]); ok = True
                        except cpp.BadAlloc: ok = False
                    elif ok:
                        args = dict(complex=[x], bluestein=[x], fft0=[x, y], dct=[d], dct0=[d, e, x],
                                    real=[x, d] if w.startswith('inv') else [d, x])[cls]
                        call(o, w, args)
                m.destruct(o)
            end = 'true' if ok else 'false'
        else:
            inv, mode = ops
            ns = {'six': 'OTFFT_SixStep', 'mixed': 'OTFFT_MixedRadix'}.get(cls, 'OTFFT_AVX' + cls.upper())
            b = m.malloc(0)
            o = m.construct(P.ns[ns].classes['FFT0'], [])
            ok = True
            try:
                if cls == 'mixed': call(o, 'setup', [n])
                else: call(o, 'setup2', [n.bit_length() - 1])
            except cpp.BadAlloc: ok = False
            if ok: call(o, {'0': {'1': 'fwd0', 'u': 'fwdu', 'n': 'fwd'}, '1': {'1': 'inv', 'u': 'invu', 'n': 'invn'}}[inv][mode], [x, y])
            m.destruct(o); m.free(b)
            end = 'true' if ok else 'false'
        m.ev.append(('E', end, len(m.size)))
    except cpp.UB as u:
        m.ev.append(('X', str(u)))
    return m.ev

def run_lean(lines):
    path = os.path.join('/tmp', 'otfft_trace.lean')
    open(path, 'w').write(lean_text())
    r = subprocess.run(['lake', 'env', 'lean', '--run', path], input='\n'.join(lines) + '\n\n', capture_output=True, text=True, cwd=LEAN)
    if r.returncode: print(r.stdout[-2000:], r.stderr[-3000:]); sys.exit(1)
    out, cur = [], None
    for l in r.stdout.split('\n'):
        if l.startswith('# '): cur = []; out.append((l[2:], cur))
        elif not l: continue
        elif l == 'P': cur.append(('P', []))
        elif l[0] == 'T' and l[1:2] in ('', ' '):
            ts = [tuple(int(v) for v in re.split('[:=]', s)) for s in l[2:].split()]
            cur[-1][1].append(ts)
        elif l[0] == 'M': _, n, b = l.split(); cur.append(('M', int(n), None if b == '-' else int(b)))
        elif l[0] == 'F': cur.append(('F', int(l.split()[1])))
        elif l[0] == 'E': _, b, k = l.split(); cur.append(('E', b, int(k)))
        elif l[0] == 'X': cur.append(('X', l[2:]))
        else: cur.append(('?', l))
    return out

# ------------------------------------------------------------------ comparison

def canon(ev):
    out, serial = [], []
    def flush():
        if serial:
            final = {}
            for b, o, h in serial: final[(b, o)] = h
            out.append(('serial', tuple(sorted(serial)), tuple(sorted(final.items()))))
            serial.clear()
    for e in ev:
        if e[0] == 'P':
            ts = [t for t in e[1] if t]
            if len(ts) == 1: serial.extend(ts[0])
            elif ts: flush(); out.append(('parallel', tuple(tuple(sorted(t)) for t in ts)))
        elif e[0] == 'X': flush(); out.append(('X',))
        else: flush(); out.append(e)
    flush()
    return out

def drop_ub(a):
    """up to the undefined step: the code before it need not be compared store by store (the two sides may meet it at
    different points of one loop)"""
    return [e for e in a if e[0] in 'MF'] + [('X',)] if a and a[-1] == ('X',) else a

def show(e): 
    s = str(e); return s[:300]

# ------------------------------------------------------------------ commands

BIG = ','.join(['1000000'] * 13)
SMALL = ','.join(['2'] * 13)
ENT = 'fwd fwd0 fwdu fwdn inv inv0 invu invn'.split()
DENT = 'fwd fwd0 fwdn inv inv0 invn'.split()

def commands(full):
    rnd = random.Random(7)
    def thr(): return ','.join(str(rnd.choice([2, 4, 8, 16, 32, 64, 128, 256, 512, 1024, 10**6])) for _ in range(13))
    out = []
    top = 12 if full else 10
    for k in KINDS:
        for lg in range(0, top + 1):
            for t in (BIG, SMALL):
                for inv, mode in itertools.product('01', '1un'):
                    if lg == 8 and (inv, mode) not in (('0', 'n'), ('1', '1')) or lg > 8 and (inv, mode) != (('0', 'n'), ('1', '1'))[(lg + (t == BIG)) % 2]: continue
                    out.append(f'{t} {k} {2**lg} 0 {2**lg} {inv} {mode}')
    for lg in range(0, top + 1):
        for t in (BIG, SMALL, thr()):
            for inv, mode in itertools.product('01', '1un'):
                if lg >= 8 and (inv, mode) not in (('0', 'u'), ('1', 'n')): continue
                out.append(f'{t} six {2**lg} 0 {2**lg} {inv} {mode}')
    mixed = list(range(1, 41)) + [42, 45, 48, 49, 50, 54, 60, 63, 64, 66, 70, 72, 75, 77, 80, 81, 84, 90, 91, 96, 98, 100, 105, 108, 110, 112, 120,
             121, 125, 126, 128, 130, 135, 143, 144, 150, 154, 160, 169, 180, 192, 210, 224, 240, 243, 250, 256, 280, 289, 343, 360]
    if full: mixed += [420, 512, 625, 640, 700, 720, 729, 768, 840, 900, 1000, 1001, 1024, 1155, 1260, 1331]
    for n in mixed:
        for t in (BIG, SMALL):
            for inv, mode in itertools.product('01', '1un'):
                if n > 60 and (inv, mode) not in (('0', 'u'), ('1', 'n')): continue
                out.append(f'{t} mixed {n} 0 {n} {inv} {mode}')
    lens = [0, 1, 2, 3, 4, 5, 6, 7, 8, 9, 10, 12, 14, 15, 16, 18, 20, 24, 28, 30, 32, 36, 44, 48, 60, 64, 66, 90, 96, 128, 130, 256, 512]
    if full: lens += [1024, 1000, 2048, 360]
    for cls in CLS:
        ents = DENT if cls.startswith('dct') else ENT
        for n in lens:
            if cls == 'bluestein' and n > 300: continue
            for t in (BIG, SMALL, thr()):
                es = ents if n <= 36 else rnd.sample(ents, 2)
                for e in es: out.append(f'{t} {cls} {max(n, 1)} 0 {n} {e}')
                if t == BIG and n <= 64:
                    for f in range(1, 14): out.append(f'{t} {cls} {max(n, 1)} {f} {n} {rnd.choice(ents)}')
        for n in (-1, -2, -3, -8, -100): out.append(f'{thr()} {cls} 4 0 {n} {ents[0]}')
        for _ in range(60 if full else 25):
            ops = []
            for _ in range(rnd.randint(2, 7)):
                ops.append(str(rnd.choice([0, 2, 3, 4, 5, 6, 8, 10, 12, 16, 20, 24, 32, 40, 64, -1, -4, 1])) if rnd.random() < .4 else rnd.choice(ents))
            out.append(f'{thr()} {cls} 80 {rnd.choice([0, 0, 0, 1, 2, 3, 4, 5, 6, 7, 8, 9, 10, 12])} {rnd.choice([0, 4, 8, 12, 16, 20, 32])} ' + ' '.join(ops))
    return out

def check_dispatch(P, rows):
    """the switch of FFT0::setup (src/otfft_algo.cpp:69-97) against `dispatch` and `logOf`"""
    s = cpp.preprocess(open(SRC + 'otfft_algo.cpp').read())
    al = dict(re.findall(r'namespace (FFT\d) = (\w+);', s))
    nm = {'OTFFT_AVX' + k.upper(): k for k in KINDS}; nm.update(OTFFT_SixStep='six', OTFFT_MixedRadix='mixed')
    sw = {int(a): nm[al[b]] for a, b in re.findall(r'case\s+(\d+): obj = (\w+)::instance\(\); obj->setup2\(log_N\); break;', s)}
    d = nm[al[re.search(r'default: obj = (\w+)::instance\(\); obj->setup\(N\); break;', s).group(1)]]
    assert re.search(r'case\s+0: break;', s)
    bad = 0
    for r in rows:
        w = r[1].split()
        if w[0] == 'none': ok = w[1] == d
        else:
            k = int(w[0]); want = 'none' if k == 0 else sw.get(k, d)
            ok = w[1] == want and int(w[2]) == k and (int(w[3]) == 99 if k else int(w[3]) == 1)
        if not ok: print('DISPATCH', r); bad += 1
    return bad

def check_switches():
    """the cases of the length switches, including those longer than any length executed here"""
    bad = 0
    for k in KINDS + ['sixstep']:
        for f in ['algo_%s.cpp' % k] + ['avx%somp.h' % k] * (k != 'sixstep'):
            s = cpp.preprocess(open(SRC + 'otfft_' + f).read())
            for sw in re.findall(r'switch \(log_N\) \{(.*?)\}', s, re.S):
                lines = [' '.join(l.split()) for l in sw.strip().split('\n')]
                inv = 'invff' in sw
                want = ['case 0: break;']
                for i in range(1, 25):
                    d = 'invfft' if inv else 'fwdfft'
                    if k != 'sixstep': e = '%s<(1<<%d),1,0%s>()(x, y, W)' % (d, i, ',mode')
                    elif i <= 5: e = 'OTFFT_FourStep::%s<(1<<%d),1,0,mode>()(x, y, W)' % (d, i)
                    elif i % 2: e = d + 'r<%d,mode>()(iv, x, y, W, Wm, Ws)' % i
                    else: e = d + 's<%d,mode>()(iv, x, y, W, Ws)' % i
                    want.append('case %d: %s; break;' % (i, e))
                got = [re.sub(r'<< *', '<<', re.sub(r'< (?=\d)', '<', l)) for l in lines]
                if got != want:
                    bad += 1; print('SWITCH', f, [(g, w) for g, w in itertools.zip_longest(got, want) if g != w][:2])
                CHECKED.append(f)
    return bad
CHECKED = []

def check_thresholds(rows):
    """Thr.omp and Thr.single against the constants without and with DO_SINGLE_THREAD; every one is known by its name"""
    bad = 0
    for (_, r), defined in zip(rows, ((), ('DO_SINGLE_THREAD',))):
        want = thresholds([int(x) for x in r.split()[1].split(',')])
        P = cpp_program(defined); M = cpp.Machine(P, {})
        seen = {}
        for S in P.ns.values():
            for where in [S] + list(S.classes.values()):
                for n, e in where.consts.items():
                    if n.startswith('OMP_'): seen[(where.name, n)] = M.val(e, cpp.Fr({}, None, S.name))
        if seen != want: print('THRESHOLDS', defined, {k: (seen.get(k), want.get(k)) for k in set(seen) | set(want) if seen.get(k) != want.get(k)}); bad += 1
    return bad

EDITS = [('addpz2', 'subpz2'), ('subpz2', 'addpz2'), ('addpz', 'subpz'), ('subpz', 'addpz'), ('v8xpz2', 'w8xpz2'), ('w8xpz2', 'v8xpz2'),
         ('jxpz2', 'cnjpz2'), ('jxpz', 'cnjpz'), ('h1xpz2', 'hfxpz2'), ('hdxpz2', 'h3xpz2'), ('+', '-'), ('-', '+'), ('<', '<='), ('*', '+'), ('N1', 'N2'),
         ('p', 'q'), ('x', 'y'), ('y', 'x'), ('0', '1'), ('1', '2'), ('2', '3'), ('4', '5'), ('8', '7'), ('s', '1'), ('catlo', 'cathi'), ('nowait', ''),
         ('fwd0', 'fwd'), ('inv0', 'invn'), ('scale_1', 'scale_length'), ('scale_unitary', 'scale_1'), ('cos', 'sin'), ('w2p', 'w3p'), ('w1p', 'w2p')]

def selftest(count, seed):
    """changes of one token: the traces must differ, the text must become unreadable, or the change is listed for reading"""
    rnd = random.Random(seed)
    every = commands(False)
    def of(k): return [c for c in every if c.split()[1] == k]
    pick = {k: of(k) for k in KINDS + ['six']}
    pick['mixed'] = [c for c in of('mixed') if int(c.split()[4]) < 160]
    pick['api'] = [c for k in CLS for c in rnd.sample(of(k), 120)]
    cmds = sorted({c for v in pick.values() for c in v})
    want = {l: drop_ub(canon(e)) for i in range(0, len(cmds), 400) for l, e in run_lean(cmds[i:i + 400])}
    base = cpp_program()
    assert all(drop_ub(canon(run_cpp(base, l))) == want[l] for l in cmds)
    files = [SRC + 'otfft_avx%s%s.h' % (k, o) for k in KINDS for o in ('', 'omp')] + [SRC + 'otfft_%s.h' % f for f in 'sixstepsq eightstep mixedradix misc'.split()] + \
            [SRC + 'otfft_algo_%s.cpp' % k for k in KINDS + ['sixstep', 'mixed']] + [SRC + 'otfft_algo.cpp'] * 4
    stats = collections.Counter()
    for _ in range(count):
        f = rnd.choice(files); a, b = rnd.choice(EDITS)
        state = {}
        class Edited(cpp.Program):
            def read(self, path, top='', cut=None):
                def g(s):
                    s = cut(s) if cut else s
                    if path == f and not state:
                        s = cpp.preprocess(s)
                        pat = r'\b%s\b' % a if re.match(r'\w', a) else r'(?<=[\w\])])\s*%s(?![=+\-<>])' % re.escape(a)
                        at = [m for m in re.finditer(pat, s) if not s[s.rfind('\n', 0, m.start()) + 1:].lstrip().startswith(('template', 'typedef', 'namespace', 'using', 'extern'))
                              and 'case' not in s[s.rfind('\n', 0, m.start()) + 1:m.start()]]
                        if at:
                            m = rnd.choice(at); state['line'] = s[:m.start()].count('\n') + 1
                            l0 = s.rfind('\n', 0, m.start()) + 1
                            new = s[:m.start()] + b + s[m.end():]
                            state['text'] = new[l0:new.index('\n', l0)].strip()
                            s = new
                    return s
                cpp.Program.read(self, path, top, g)
        P = Edited()
        try: cpp_program(P=P)
        except Exception: P = None
        if not state: continue
        seen = P is None
        if not seen:
            base = os.path.basename(f)
            k = next((k for k in sorted(KINDS, key=len, reverse=True) if k in base), 'six' if re.search('step', base) else 'mixed' if 'mixed' in base else 'api')
            for l in rnd.sample(pick[k], len(pick[k])):
                try: r = drop_ub(canon(run_cpp(P, l)))
                except Exception: seen = True; break
                if r != want[l]: seen = True; break
        stats['seen' if seen else 'not seen'] += 1
        if not seen: print('NOT SEEN', os.path.basename(f), (a, b), state['text'])
    print(dict(stats))

def main():
    if sys.argv[1:2] == ['selftest']: return selftest(int(sys.argv[2]), int((sys.argv + ['1'])[3]))
    full = sys.argv[1:] == ['full']
    P = cpp_program()
    t0 = time.time()
    cmds = commands(full)
    stats = collections.Counter()
    bad = check_switches()
    step = 400
    for i in range(0, len(cmds), step):
        chunk = cmds[i:i + step]
        res = run_lean((['dispatch', 'thresholds'] if i == 0 else []) + chunk)
        if i == 0: bad += check_dispatch(P, res[0][1]) + check_thresholds(res[1][1]); res = res[2:]
        assert [l for l, _ in res] == chunk
        for line, lev in res:
            cev = run_cpp(P, line)
            a, b = drop_ub(canon(lev)), drop_ub(canon(cev))
            stats[line.split()[1]] += 1
            if a and a[-1] == ('X',): stats['undefined on both sides'] += 1
            stats['stores compared'] += sum(len(e[1]) if e[0] == 'serial' else sum(len(t) for t in e[1]) for e in a if e[0] in ('serial', 'parallel'))
            stats['parallel phases'] += sum(e[0] == 'parallel' for e in a)
            if a != b:
                bad += 1
                if bad <= 12:
                    print('DIFFERENT', line)
                    for u, v in itertools.zip_longest(a, b):
                        if u != v: print('   lean', show(u)); print('   c++ ', show(v)); break
    stats['length switches read'] = len(CHECKED)
    print(dict(stats)); print('commands', len(cmds), 'different', bad, '%.0f s' % (time.time() - t0))
    sys.exit(bad != 0)

if __name__ == '__main__': main()
