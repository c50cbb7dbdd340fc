"""A line-by-line transliteration of the compiled Rust code of /repo/src into Python, used only to
compare the Lean model with (see README.md).  A Rust panic is a Python exception."""

EXT = {'bits1': 2, 'bits2': 4, 'bits4': 16}


class Panic(Exception):
    pass


def rassert(b):
    if not b:
        raise Panic()


def idx(l, i):
    if i < 0 or i >= len(l):
        raise Panic()
    return l[i]


def usub(a, b):
    if b > a:
        raise Panic()
    return a - b


# ---- tokenset.rs; tokens are ('e', n) or ('s', bytes) so that tuple order is the order of Token
class TokenSet:
    def __init__(self, n_ext, processing, ty, split):
        rassert(n_ext < 256)
        self.n_ext, self.processing, self.ty, self.split = n_ext, processing, ty, split
        self.tokens = [('e', i) for i in range(n_ext)]
        self.sequences = []

    def clone(self):
        t = TokenSet(self.n_ext, self.processing, self.ty, self.split)
        t.tokens = list(self.tokens)
        t.sequences = [(s, list(l)) for s, l in self.sequences]
        return t

    @staticmethod
    def new_bits(ty, processing, split):
        t = TokenSet(EXT[ty], processing, ty, split)
        for c in range(256):
            if ty == 'bits4':
                d = [c >> 4, c & 15]
            else:
                n, w = (8, 1) if ty == 'bits1' else (4, 2)
                rem, d = c, []
                for _ in range(n):
                    d.append(rem & ((1 << w) - 1))
                    rem >>= w
                d.reverse()
            t.add_sequence(bytes([c]), d)
        return t

    @staticmethod
    def new_bytes(processing):
        t = TokenSet(0, processing, 'bytes', True)
        for c in range(256):
            t.add_token(bytes([c]))
        return t

    def name(self):
        return 'tokens%d_%s_%s' % (len(self.tokens), self.processing, self.ty)

    def min_bytes_ext(self):
        return {'bits1': 2, 'bits2': 4, 'bits4': 16, 'bytes': 256, 'byteshuff': 3}[self.ty]

    def add_sequence(self, s, l):
        self.sequences.append((s, l))

    def add_token(self, s):
        rassert(len(s) > 0)
        self.sequences = [q for q in self.sequences if q[0] != s]
        self.tokens.append(('s', s))
        return len(self.tokens) - 1

    def remove_token(self, i):
        for q in self.sequences:
            rassert(i not in q[1])
        last = usub(len(self.tokens), 1)
        if i == last:
            self.tokens.pop()
        else:
            t = self.tokens.pop()
            idx(self.tokens, i)
            self.tokens[i] = t
            for q in self.sequences:
                for k in range(len(q[1])):
                    if q[1][k] == last:
                        q[1][k] = i

    def find_token(self, s):
        for i, t in enumerate(self.tokens):
            if t == ('s', s):
                return i
        return None

    def n_long(self):
        return sum(1 for t in self.tokens if t[0] == 's' and len(t[1]) > 1)

    def sort(self):
        order = sorted(range(len(self.tokens)), key=lambda i: self.tokens[i])
        new = [0] * len(self.tokens)
        for pos, cur in enumerate(order):
            new[cur] = pos
        for q in self.sequences:
            for k in range(len(q[1])):
                q[1][k] = idx(new, q[1][k])
        self.tokens.sort()
        self.sequences.sort(key=lambda q: q[0])


# ---- stats2.rs
class Stats:
    def __init__(self, ts):
        self.ts, self.total, self.scanned = ts, 0, 0
        self.tok, self.seq = [0] * len(ts.tokens), [0] * len(ts.sequences)
        self.pairs = {}  # sparse: index -> count; no_pairs when cleared
        self.npairs = len(ts.tokens) ** 2


# ---- tokenizer2.rs
class Tokenizer:
    def __init__(self, ts):
        self.ts = ts
        spans = [[None, b'', 0, 0]]
        by = {b'': 0}
        for i, t in enumerate(ts.tokens):
            if t[0] == 's':
                rassert(t[1] not in by)
                by[t[1]] = len(spans)
                spans.append([('t', i), t[1], 0, 1])
        for i, q in enumerate(ts.sequences):
            rassert(q[0] not in by)
            by[q[0]] = len(spans)
            spans.append([('q', i), q[0], 0, len(q[1])])
        for sp in spans[1:]:
            for start in range(1, usub(len(sp[1]), 1) + 1):
                if sp[1][start:] in by:
                    sp[2] = by[sp[1][start:]]
                    break
        states = [[b'', 0, [0] * 256]]
        sby = {b'': 0}
        for sp in spans:
            for end in range(1, len(sp[1]) + 1):
                p = sp[1][:end]
                if p in sby:
                    continue
                suf = 0
                for start in range(len(p)):
                    if p[start:] in by:
                        suf = by[p[start:]]
                        break
                rassert(suf > 0)
                sby[p] = len(states)
                states.append([p, suf, [0] * 256])
        for st in states:
            for b in range(256):
                s = st[0] + bytes([b])
                k = 0
                for start in range(len(s)):
                    if s[start:] in sby:
                        k = sby[s[start:]]
                        break
                rassert(k > 0)
                st[2][b] = k
        self.spans, self.states = spans, states

    def process_slice(self, data, st):
        cost = [(0, 0)]
        state = self.states[0]
        for b in data:
            state = self.states[state[2][b]]
            best = None
            si = state[1]
            while si != 0:
                sp = self.spans[si]
                c = idx(cost, len(cost) - len(sp[1]))[0] + sp[3]
                if best is None or best[0] > c:
                    best = (c, si)
                si = sp[2]
            rassert(best is not None)
            cost.append(best)
        st.total += cost[-1][0]
        st.scanned += len(data)
        n = len(st.ts.tokens)
        counts = [0] * len(self.spans)
        nxt = None
        pos = len(data)
        while pos > 0:
            si = cost[pos][1]
            counts[si] += 1
            sp = self.spans[si]
            if sp[0][0] == 't':
                if nxt is not None:
                    k = sp[0][1] * n + nxt
                    st.pairs[k] = st.pairs.get(k, 0) + 1
                nxt = sp[0][1]
            else:
                nxt = None
            pos -= len(sp[1])
        for si in range(1, len(self.spans)):
            kind, i = self.spans[si][0]
            if kind == 'q':
                st.seq[i] += counts[si]
                for t in st.ts.sequences[i][1]:
                    st.tok[t] += counts[si]
            else:
                st.tok[i] += counts[si]


def tokenize(ts, samples):
    tk = Tokenizer(ts)
    st = Stats(ts)
    for s in samples:
        tk.process_slice(s, st)
    return st


# ---- optimize_bytes.rs
def longs(ts):
    return [t[1] for t in ts.tokens if t[0] == 's' and len(t[1]) > 1]


def simple(st, n_byte_ext):
    n = usub(n_byte_ext, st.ts.n_ext)
    counts = [0] * 256
    for i, t in enumerate(st.ts.tokens):
        if t[0] == 's' and len(t[1]) == 1:
            counts[t[1][0]] = st.tok[i]
    for i, q in enumerate(st.ts.sequences):
        if len(q[0]) == 1:
            counts[q[0][0]] = st.seq[i]
    order = sorted(range(256), key=lambda b: -counts[b])
    if n > 256:
        raise Panic()
    if st.ts.ty not in EXT:
        raise Panic()
    new = TokenSet.new_bits(st.ts.ty, st.ts.processing, st.ts.split)
    for b in order[:n]:
        new.add_token(bytes([b]))
    for s in longs(st.ts):
        new.add_token(s)
    return new


def noop(st, n):
    return st.ts.clone()


def huff(st, n_byte_ext):
    counts = [(i, 1) for i in range(256)]
    for t, c in zip(st.ts.tokens, st.tok):
        if t[0] == 's' and len(t[1]) == 1:
            counts[t[1][0]] = (t[1][0], c + 1)
    for q, c in zip(st.ts.sequences, st.seq):
        rassert(len(q[0]) == 1)
        counts[q[0][0]] = (q[0][0], c + 1)
    best, best_total = None, None
    for n_ext in range(2, min(usub(n_byte_ext, 1), 10) + 1):
        ts = bytes_tokenset(counts, usub(n_byte_ext, n_ext), n_ext, st.ts.processing)
        total = 0
        for t in ts.tokens:
            if t[0] == 's':
                rassert(len(t[1]) == 1)
                total += counts[t[1][0]][1]
        for q in ts.sequences:
            rassert(len(q[0]) == 1)
            total += counts[q[0][0]][1] * len(q[1])
        if best_total is None or total < best_total:
            best, best_total = ts, total
    rassert(best is not None)
    for s in longs(st.ts):
        best.add_token(s)
    return best


def node_split(node):
    if node[1] is None:
        return (node[2], node[2], node[0])
    f, s = node_split(node[1]), node_split(node[2])
    top = (f[1], f[2]) if f[2] > s[2] else (s[1], s[2])
    return (min(f[0], s[0]),) + top


def splits_of(counts, parts):
    nodes = [(c, None, ch) for ch, c in counts]
    while len(nodes) > parts:
        m, bi = None, None
        for i in range(len(nodes) - 1):
            pc = nodes[i][0] + nodes[i + 1][0]
            if m is None or pc < m:
                m, bi = pc, i
        rassert(bi is not None)
        second = nodes.pop(bi + 1)
        first = nodes[bi]
        nodes[bi] = (first[0] + second[0], first, second)
    return [node_split(x) for x in nodes]


def search_err(counts, ch):
    import bisect
    i = bisect.bisect_left(counts, (ch, 0))
    if i < len(counts) and counts[i] == (ch, 0):
        raise Panic()
    return i


def group(counts, splits, i):
    lo = search_err(counts, splits[i][0])
    hi = len(counts) if i == len(splits) - 1 else search_err(counts, splits[i + 1][0])
    return lo, hi


def without_top(counts, split, lo, hi):
    if lo > hi or hi > len(counts):
        raise Panic()
    sub = list(counts[lo:hi])
    k = search_err(sub, split[1])
    if k >= len(sub):
        raise Panic()
    sub.pop(k)
    return sub


def ext_encoding(counts, n_ext):
    if len(counts) <= n_ext:
        return [(ch, [i]) for i, (ch, _) in enumerate(counts)]
    splits = splits_of(counts, n_ext)
    encs = []
    for i, sp in enumerate(splits):
        encs.append((sp[1], [i]))
        lo, hi = group(counts, splits, i)
        if hi == lo + 1:
            continue
        for ch, enc in ext_encoding(without_top(counts, sp, lo, hi), n_ext):
            encs.append((ch, [i] + enc))
    return encs


def bytes_tokenset(counts, n_char, n_ext, processing):
    ts = TokenSet(n_ext, processing, 'byteshuff', True)
    splits = splits_of(counts, n_char)
    for i, sp in enumerate(splits):
        top = ts.add_token(bytes([sp[1]]))
        lo, hi = group(counts, splits, i)
        if hi == lo + 1:
            continue
        for ch, enc in ext_encoding(without_top(counts, sp, lo, hi), n_ext):
            ts.add_sequence(bytes([ch]), [top] + enc)
    return ts


# ---- optimize.rs
def is_valid_token(s):
    for i in range(usub(len(s), 2)):
        if s[i] == 10 and s[i + 1] == 10 and s[i + 2] != 10:
            return False
    return True


def add_token_bpe(st):
    order = sorted(sorted(st.pairs), key=lambda i: -st.pairs[i])
    new, count = b'', 0
    n = len(st.ts.tokens)
    for p in order:
        a, b = st.ts.tokens[p // n], st.ts.tokens[p % n]
        rassert(a[0] == 's' and b[0] == 's')
        new = a[1] + b[1]
        if is_valid_token(new):
            count = st.pairs[p]
            break
    if not new:
        return None
    ts = st.ts.clone()
    ts.add_token(new)
    return ts, count


def count_in_bytes(ts, st):
    cost = [None] * 256
    for t in ts.tokens:
        if t[0] == 's' and len(t[1]) == 1:
            rassert(cost[t[1][0]] is None)
            cost[t[1][0]] = 1
    for q in ts.sequences:
        if len(q[0]) == 1:
            rassert(cost[q[0][0]] is None)
            cost[q[0][0]] = len(q[1])
    total = 0
    for i, t in enumerate(st.ts.tokens):
        if t[0] == 's' and len(t[1]) == 1:
            rassert(cost[t[1][0]] is not None)
            total += cost[t[1][0]] * st.tok[i]
    for i, q in enumerate(st.ts.sequences):
        if len(q[0]) == 1:
            rassert(cost[q[0][0]] is not None)
            total += cost[q[0][0]] * st.seq[i]
    return total


class Optimizer:
    def __init__(self, samples, ty, n):
        self.samples, self.ty, self.n = samples, ty, n
        self.bo = {'bytes': noop, 'byteshuff': huff}.get(ty, simple)
        self.cache = {}
        self.removed = {}

    def stats(self, ts):
        ts = ts.clone()
        ts.sort()
        key = repr((ts.ty, ts.processing, ts.split, ts.tokens,
                    [q for q in ts.sequences if len(q[1]) > 1]))
        if key not in self.cache:
            self.cache[key] = tokenize(ts, self.samples)
        return self.cache[key]

    def add_byte(self, st):
        old = count_in_bytes(st.ts, st)
        new = self.bo(st, usub(len(st.ts.tokens), st.ts.n_long()) + 1)
        if len(new.tokens) == len(st.ts.tokens):
            return None
        return new, old - count_in_bytes(new, st)

    def add_token(self, ts):
        st = self.stats(ts)
        a, b = self.add_byte(st), add_token_bpe(st)
        if a is None:
            return None if b is None else b[0]
        if b is None:
            return a[0]
        return a[0] if a[1] > b[1] else b[0]

    def remove_add(self, ts):
        n = self.n
        if len(ts.tokens) < n:
            new = self.add_token(ts)
            return None if new is None else self.stats(new)
        rassert(len(ts.tokens) == n)
        st = self.stats(ts)
        short = usub(len(ts.tokens), ts.n_long())
        if short > ts.min_bytes_ext():
            new = self.bo(st, short - 1)
            rassert(len(new.tokens) == n - 1)
            r = add_token_bpe(self.stats(new))
            if r is not None:
                st2 = self.stats(r[0])
                if st2.total < st.total:
                    return st2
        for s in sorted(longs(ts), key=lambda s: self.removed.get(s, 0)):
            self.removed[s] = self.removed.get(s, 0) + 1
            new = ts.clone()
            new.remove_token(new.find_token(s))
            rassert(len(new.tokens) == n - 1)
            newer = self.add_token(new)
            if newer is not None:
                st2 = self.stats(newer)
                if st2.total < st.total:
                    return st2
        return None

    def step(self, ts):
        st = self.stats(ts)
        new = self.bo(st, usub(self.n, ts.n_long()))
        st2 = self.stats(new)
        if st2.total < st.total:
            return st2.ts
        st2 = self.remove_add(ts)
        if st2 is not None:
            rassert(len(st2.ts.tokens) <= self.n)
            return st2.ts
        return None

    def run(self, pretrained=None):
        if pretrained is not None:
            ts = pretrained
        elif self.ty in EXT:
            ts = TokenSet.new_bits(self.ty, 'raw', True)
        else:
            ts = TokenSet.new_bytes('raw')
            if self.ty == 'byteshuff':
                ts = huff(self.stats(ts), self.n)
        self.stats(ts)
        while True:
            new = self.step(ts)
            if new is None:
                break
            ts = new
        ts = ts.clone()
        ts.sort()
        return self.stats(ts)


# ---- input/*.rs
def para_end(data, end):
    pos = end
    while pos >= 2 and (idx(data, pos - 1) != 10 or data[pos - 2] != 10):
        pos -= 1
    return end if pos < 2 else pos


def lossy(b):
    return b.decode('utf-8', 'replace').encode()


def mem_samples(data, chunk):
    pos, out = 0, []
    while pos < len(data):
        start = pos
        pos = min(start + chunk, len(data))
        pe = para_end(data, pos)
        if pos < len(data) and pe > start:
            pos = pe
        out.append(lossy(data[start:pos]))
    return out


def file_samples(data, size):
    off, out = 0, []
    while True:
        buf = data[off:off + size]
        if not buf:
            return out
        if len(buf) == size:
            buf = buf[:para_end(buf, len(buf))]
        off += len(buf)
        try:
            buf.decode('utf-8')
        except UnicodeDecodeError:
            raise Panic()
        out.append(buf)


def extract(data):
    start = 0
    cs = lambda b: b < 128 or b >= 192
    while start < len(data) and not cs(data[start]):
        start += 1
    end = len(data)
    if idx(data, end - 1) >= 128:
        end -= 1
        while end > start and not cs(data[end]):
            end -= 1
    if start > end:
        raise Panic()
    return data[start:end]


def preloaded(data, size, maxs):
    n = len(data)
    if n <= size:
        size, k = n, 1
    elif n <= size * maxs:
        k = n // size
    else:
        k = maxs
    if k == 0:
        raise Panic()
    step = n // k
    out = []
    for i in range(k):
        c = data[i * step:i * step + size]
        out.append(lossy(extract(c[:para_end(c, len(c))])))
    return out


def div(a, b):
    if b == 0:
        return float('nan') if a == 0 else float('inf')
    return a / b


def sample_from(data, size):
    share = div(float(size), float(len(data)))
    out, para, read = b'', b'', 0
    for line in data.split(b'\n'):
        pass
    lines, cur = [], b''
    for i in range(len(data)):
        cur += data[i:i + 1]
        if data[i] == 10:
            lines.append(cur)
            cur = b''
    if cur:
        lines.append(cur)
    for buf in lines:
        if buf[0] != 10 and para.endswith(b'\n\n'):
            if div(float(len(out)), float(read)) < share:
                out += para
            read += len(para)
            para = b''
        para += buf
    if div(float(len(out)), float(read)) < share:
        out += para
    return out
