"""python3 fuzz.py gen SEED KIND COUNT   writes test cases to stdout
   python3 fuzz.py expect                reads test cases from stdin, writes the answers of port.py"""
import random
import sys
import port
from port import Panic, TokenSet, tokenize


def show_tok(t):
    return t[1].hex() if t[0] == 's' else 'e%d' % t[1]


def show_set(ts):
    return '%s %d %s [%s] [%s]' % (
        ts.name(), ts.n_ext, 'true' if ts.split else 'false', ','.join(map(show_tok, ts.tokens)),
        ','.join(s.hex() + ':' + '.'.join(map(str, l)) for s, l in ts.sequences))


def show_stats(st, pairs=True):
    ps = ','.join('%d=%d' % (k, st.pairs[k]) for k in sorted(st.pairs)) if pairs else ''
    return '%s total %d scanned %d tok [%s] seq [%s] pairs %s' % (
        show_set(st.ts), st.total, st.scanned, ', '.join(map(str, st.tok)),
        ', '.join(map(str, st.seq)), ps)


def mk(t, strs):
    ts = TokenSet.new_bits(t, 'raw', True) if t in port.EXT else TokenSet.new_bytes('raw')
    for s in strs:
        ts.add_token(s)
    return ts


def unhexs(s):
    return [bytes.fromhex(x) for x in s.split(',')]


def answer(words):
    try:
        if words[0] == 'tok':
            ts = mk(words[1], [s for s in unhexs(words[2]) if s])
            ts.sort()
            return show_stats(tokenize(ts, unhexs(words[3])))
        if words[0] == 'bytes':
            ts = mk(words[1], [s for s in unhexs(words[2]) if s])
            samples = unhexs(words[3])
            f = {'bytes': port.noop}.get(words[1], port.simple) if words[5] == '0' else port.huff
            r = f(tokenize(ts, samples), int(words[4]))
            if words[5] != '0':
                r = port.huff(tokenize(r, samples), int(words[5]))
            return show_set(r)
        if words[0] == 'opt':
            return show_stats(port.Optimizer(unhexs(words[3]), words[1], int(words[2])).run(), False)
        if words[0] == 'mem':
            return ','.join(s.hex() for s in port.mem_samples(bytes.fromhex(words[2]), int(words[1])))
        if words[0] == 'file':
            return ','.join(s.hex() for s in port.file_samples(bytes.fromhex(words[2]), int(words[1])))
        if words[0] == 'pre':
            return ','.join(s.hex() for s in
                            port.preloaded(bytes.fromhex(words[3]), int(words[1]), int(words[2])))
        if words[0] == 'sample':
            return port.sample_from(bytes.fromhex(words[2]), int(words[1])).hex()
        if words[0] == 'lossy':
            return port.lossy(bytes.fromhex(words[1])).hex()
    except Panic:
        return 'PANIC'
    return '?'


def text(r, n, alphabet):
    return bytes(r.choice(alphabet) for _ in range(n))


def utf(r, n):
    return ''.join(r.choice(['a', 'b', '\n', '\n', 'é', '€', '😀']) for _ in range(n)).encode()


def junk(r, n):
    return bytes(r.choice([0x41, 0x80, 0xbf, 0xc0, 0xc3, 0xa9, 0xe0, 0xe2, 0x82, 0xac, 0xed, 0xa0, 0x9f,
                           0xef, 0xf0, 0x90, 0xf4, 0x8f, 0xf5, 0xff, r.randrange(256)]) for _ in range(n))


def gen(seed, kind, count):
    r = random.Random(seed)
    for _ in range(count):
        if kind == 'tok':
            a = r.choice([b'ab', b'abc', b'a\n', bytes(range(97, 105))])
            strs = {text(r, r.randint(1, 5), a) for _ in range(r.randint(0, 8))}
            if r.random() < 0.05:
                strs = list(strs) + list(strs)[:1]
            ts = r.choice(['bits1', 'bits2', 'bits4', 'bytes'])
            if ts == 'bytes':
                strs = [s for s in strs if len(s) > 1]
            strs = list(strs)
            r.shuffle(strs)
            print('tok', ts, ','.join(s.hex() for s in strs),
                  ','.join(text(r, r.randint(1, 40), a).hex() for _ in range(r.randint(1, 3))))
        elif kind == 'bytes':
            a = r.choice([b'ab', b'abcdefgh', bytes(range(256)), b'eeeeeetttaaoinshrdlu \n'])
            t = r.choice(['bits1', 'bits2', 'bits4', 'bytes'])
            strs = {text(r, r.randint(2, 4), a) for _ in range(r.randint(0, 4))}
            print('bytes', t, ','.join(s.hex() for s in strs), text(r, r.randint(1, 200), a).hex(),
                  r.choice([2, 3, 4, 5, 8, 16, 17, 30, 100, 256, 258, 260, 273]),
                  r.choice([0, 0, 2, 3, 4, 7, 12, 40, 120, 258, 300]))
        elif kind == 'opt':
            a = r.choice([b'ab', b'abc', b'ab\n', b'abcd'])
            t = r.choice(['bits1', 'bits2', 'bits4', 'byteshuff'])
            n = {'bits1': 2, 'bits2': 4, 'bits4': 16, 'byteshuff': 3}[t] + r.randint(0, 5)
            print('opt', t, n, text(r, r.randint(1, 30), a).hex())
        elif kind == 'in':
            d = utf(r, r.randint(0, 40)) if r.random() < 0.7 else junk(r, r.randint(0, 40))
            k = r.choice(['mem', 'file', 'pre', 'lossy'])
            if k == 'lossy':
                print(k, junk(r, r.randint(0, 20)).hex())
            elif k == 'pre':
                print(k, r.randint(1, 20), r.randint(1, 5), d.hex())
            else:
                print(k, r.randint(1, 20), d.hex())
        elif kind == 'sample':
            d = text(r, r.randint(1, 80), b'ab\n\n')
            print('sample', r.randint(1, 2 * len(d)), d.hex())


if sys.argv[1] == 'gen':
    gen(int(sys.argv[2]), sys.argv[3], int(sys.argv[4]))
else:
    for line in sys.stdin:
        print(answer(line.rstrip('\n').split(' ')))
