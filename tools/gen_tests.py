#!/usr/bin/env python3
"""Translates the unit tests of /repo into Lean and writes lean/Verif/Tests/*.lean.

Each Rust test becomes a list of steps run against the model; the Lean file checks that no step fails.
Only the Rust syntax used by those tests is understood; anything else raises an error.
Keys made by `Pubkey::new_unique()` become `K 1`, `K 2`, ... and every random account gets its own number.
"""
import re, sys

TOK = re.compile(r'\s+|//[^\n]*|(?P<num>\d[\d_]*)|(?P<id>[A-Za-z_]\w*!?)|(?P<op>::|\.\.|==|\|\||=>|->|[-+*/%&!|(){}\[\].,;:<>=#\'])')


def tokens(text):
    out, i = [], 0
    while i < len(text):
        m = TOK.match(text, i)
        if not m:
            raise SyntaxError(text[i:i + 40])
        if m.lastgroup:
            out.append(m.group())
        i = m.end()
    return out


class Parser:
    def __init__(self, toks):
        self.t, self.i = toks, 0

    def peek(self, k=0):
        return self.t[self.i + k] if self.i + k < len(self.t) else None

    def next(self):
        self.i += 1
        return self.t[self.i - 1]

    def eat(self, x):
        if self.peek() == x:
            self.i += 1
            return True
        return False

    def need(self, x):
        if not self.eat(x):
            raise SyntaxError(f"need {x}, found {self.t[self.i:self.i + 12]}")

    def block(self):
        out = []
        self.need('{')
        while not self.eat('}'):
            out.append(self.stmt())
        return out

    def generic(self):
        depth = 1
        while depth:
            x = self.next()
            depth += (x == '<') - (x == '>')

    def stmt(self):
        if self.eat('let'):
            self.eat('mut')
            name = self.next()
            if self.eat(':'):
                while self.peek() != '=':
                    self.next()
            self.need('=')
            e = self.expr()
            self.need(';')
            return ('let', name, e)
        e = self.expr()
        if not self.eat(';') and self.peek() != '}':
            raise SyntaxError(f"statement end at {self.t[self.i:self.i + 12]}")
        return ('do', e)

    def expr(self):
        e = self.cmp()
        while self.eat('||'):
            e = ('or', e, self.cmp())
        return e

    def cmp(self):
        e = self.rng()
        if self.eat('=='):
            e = ('eq', e, self.rng())
        return e

    def rng(self):
        e = self.unary()
        if self.eat('..'):
            e = ('range', e, self.unary())
        return e

    def unary(self):
        if self.eat('&'):
            self.eat('mut')
            return self.unary()
        if self.eat('*'):
            return self.unary()
        if self.eat('!'):
            return ('not', self.unary())
        if self.eat('||'):
            return ('fn', [], self.expr())
        if self.eat('|'):
            names = []
            while not self.eat('|'):
                names.append(self.next())
            return ('fn', names, self.expr())
        return self.postfix(self.primary())

    def args(self, close):
        out = []
        while not self.eat(close):
            out.append(self.expr())
            if not self.eat(','):
                if self.eat(';'):
                    out = [('repeat', out[0], self.expr())]
                self.need(close)
                break
        return out

    def primary(self):
        x = self.next()
        if x[0].isdigit():
            return ('num', int(x.replace('_', '')))
        if x == '(':
            e = self.expr()
            if self.eat(','):
                e = ('pair', e, self.expr())
                self.eat(',')
            self.need(')')
            return e
        if x == '[':
            return ('list', self.args(']'))
        if x == 'vec!':
            self.need('[')
            return ('list', self.args(']'))
        if x in ('assert!', 'assert_eq!'):
            self.need('(')
            return (x, self.args(')'))
        path = [x]
        while self.eat('::'):
            if self.eat('<'):
                self.generic()
            else:
                path.append(self.next())
        if self.peek() == '{' and path[-1][0].isupper():
            self.need('{')
            fields = {}
            while not self.eat('}'):
                f = self.next()
                fields[f] = self.expr() if self.eat(':') else ('path', [f])
                self.eat(',')
            return ('struct', path[-1], fields)
        if self.eat('('):
            return ('call', path, self.args(')'))
        return ('path', path)

    def postfix(self, e):
        while True:
            if self.eat('.'):
                name = self.next()
                if self.eat('::'):
                    self.need('<')
                    self.generic()
                if self.eat('('):
                    e = ('method', e, name, self.args(')'))
                else:
                    e = ('field', e, name)
            elif self.eat('['):
                ix = self.expr()
                self.need(']')
                e = ('index', e, ix)
            else:
                return e


def functions(path, names):
    """The bodies of the named functions with the lines they take."""
    text = open(path).read()
    for name in names:
        m = re.search(r'^( *)(pub )?fn ' + name + r'\(\) \{', text, re.M)
        end = text.index('\n' + m.group(1) + '}\n', m.end())
        first = text[:m.start()].count('\n') + 1
        last = text[:end + 2].count('\n') + 1
        yield name, first, last, Parser(tokens(text[m.end() - 1:end + len(m.group(1)) + 3])).block()


class V:
    """A value of the translated program: a Lean term or a call whose answer is checked later."""

    def __init__(self, kind, code, **kw):
        self.kind, self.code = kind, code
        self.__dict__.update(kw)

    def __repr__(self):
        return f"<{self.kind} {self.code}>"


def atom(s):
    """`s` in parentheses unless it is one word or already bracketed as a whole."""
    if re.fullmatch(r'[\w.]+', s):
        return s
    if s[0] in '([':
        depth = 0
        for i, ch in enumerate(s):
            depth += (ch in '([') - (ch in ')]')
            if depth == 0:
                return s if i == len(s) - 1 else '(' + s + ')'
    return '(' + s + ')'


class Test:
    def __init__(self):
        self.env, self.steps, self.keys, self.rnds = {}, [], 0, 0
        self.version = 0
        self.filters = None

    def emit(self, s):
        self.steps.append(s)

    # values -----------------------------------------------------------------------------------
    def lean(self, e):
        v = self.ev(e)
        if v.kind != 'lean':
            raise ValueError(f"not a value: {e} {v}")
        return v.code

    def opt(self, e):
        return 'none' if e == ('path', ['None']) else self.lean(e)

    def key(self):
        self.keys += 1
        return V('lean', f'(K {self.keys})')

    def ev(self, e):
        k = e[0]
        if k == 'num':
            return V('lean', str(e[1]))
        if k == 'pair':
            return V('lean', f'({self.lean(e[1])}, {self.lean(e[2])})')
        if k == 'list':
            if e[1] and e[1][0][0] == 'repeat':
                _, x, n = e[1][0]
                return V('lean', f'(List.replicate {self.lean(n)} {self.lean(x)})')
            return V('lean', '[' + ', '.join(self.lean(x) for x in e[1]) + ']')
        if k == 'path':
            return self.ev_path(e[1])
        if k == 'struct':
            return self.ev_struct(e[1], e[2])
        if k == 'call':
            return self.ev_call(e[1], e[2])
        if k == 'method':
            return self.ev_method(e)
        if k == 'field':
            v = self.ev(e[1])
            if v.kind == 'cell' and e[2] in ('confirmed_account', 'finalized_account'):
                return V('read', f".{e[2].split('_')[0]}", version=self.version)
            raise ValueError(e)
        if k == 'index':
            v = self.ev(e[1])
            if e[2][0] == 'range':
                return V('lean', f'(cut {atom(v.code)} {self.lean(e[2][1])} {self.lean(e[2][2])})')
            if v.kind == 'keys':
                return V('lean', v.items[e[2][1]].code)
        if k == 'not':
            v = self.ev(e[1])
            if v.kind == 'bool':
                return V('bool', v.code, want=not v.want)
        raise ValueError(e)

    def ev_path(self, p):
        if len(p) == 1 and p[0] in self.env:
            return self.env[p[0]]
        if p == ['None']:
            return V('lean', 'none')
        if p == ['false'] or p == ['true']:
            return V('lean', p[0])
        if p == ['u64', 'MAX']:
            return V('lean', '18446744073709551615')
        if p[-2] == 'Commitment':
            return V('lean', '.' + p[-1].lower())
        if p == ['CompressionMethod', 'None']:
            return V('lean', '.none')
        if p == ['AccountLoadingError', 'ConfigDoesnotContainRequiredFilters']:
            return V('lean', '.configDoesNotContainRequiredFilters')
        raise ValueError(p)

    def ev_struct(self, name, f):
        if name == 'AccountFilter':
            return V('lean', f"⟨{self.lean(f['accounts'])}, {self.lean(f['program_id'])}, {self.opt(f['filters'])}⟩")
        if name == 'MemcmpFilter':
            return V('lean', f"⟨{self.lean(f['offset'])}, {self.lean(f['data'])}⟩")
        if name == 'SlotInfo':
            return V('lean', f"⟨{self.lean(f['slot'])}, {self.lean(f['parent'])}, {self.lean(f['root'])}⟩")
        if name == 'Account':
            return V('lean', '⟨' + ', '.join(self.lean(f[x]) for x in
                                             ('lamports', 'data', 'owner', 'executable', 'rent_epoch')) + '⟩')
        if name == 'AccountData':
            return V('lean', '⟨' + ', '.join(self.lean(f[x]) for x in
                                             ('pubkey', 'account', 'updated_slot', 'write_version')) + '⟩')
        raise ValueError(name)

    def ev_call(self, p, args):
        name = p[-1]
        two = p[-2:] if len(p) > 1 else p
        if two == ['Pubkey', 'new_unique']:
            return self.key()
        if two == ['Pubkey', 'default']:
            return V('lean', 'Pubkey.default')
        if two == ['spl_token', 'id']:
            return V('lean', 'Spl.tokenId')
        if name in ('Arc', 'new') and two == ['Arc', 'new']:
            return self.ev(args[0])
        if name == 'Some':
            return V('lean', f'(some {atom(self.lean(args[0]))})')
        if name == 'Ok':
            return V('lean', self.lean(args[0]))
        if name == 'Err':
            return V('error', self.lean(args[0]))
        if two == ['Data', 'Uncompressed']:
            return V('lean', f'.uncompressed {atom(self.lean(args[0]))}')
        if two == ['CompressionMethod', 'Lz4']:
            return V('lean', f'(.lz4 {self.lean(args[0])})')
        if two == ['AccountFilterType', 'Datasize']:
            return V('lean', f'.datasize {self.lean(args[0])}')
        if two == ['AccountFilterType', 'Memcmp']:
            return V('lean', f'.memcmp {self.lean(args[0])}')
        if len(two) == 2 and two[0] == 'MemcmpFilterData':
            return V('lean', f'.{name.lower()} {atom(self.lean(args[0]))}')
        if two == ['bs58', 'encode']:
            return V('lean', f'(text58 {atom(self.lean(args[0]))})')
        if two in (['rand', 'thread_rng'], ['HashSet', 'new'], ['fmt', 'init']):
            return V('skip', '')
        if name == 'new_filter_store':
            return V('filters', self.lean(args[0]))
        if two in (['InmemoryAccountStore', 'new'],):
            self.filters = self.ev(args[0]).code
            return V('store', '')
        if two in (['InmemoryTokenAccountStorage', 'default'],):
            return V('skip', '')
        if two in (['TokenProgramAccountsStorage', 'new'],):
            return V('store', '')
        if two == ['AccountDataByCommitment', 'default']:
            return V('cell', 'empty')
        if two == ['AccountDataByCommitment', 'initialize']:
            self.emit(f'start {self.lean(args[0])}')
            return V('cell', '')
        if two in (['SimpleFilterStore', 'default'], ['ExceptFilterStore', 'default']):
            return V('filterstore', '')
        if name == 'new_slot_info':
            return V('lean', f'(slotInfo {self.lean(args[0])})')
        if name.startswith('create_random_account'):
            self.rnds += 1
            a = [self.lean(x) for x in args[1:]]
            if name == 'create_random_account':
                return V('lean', f'(rnd {self.rnds} {a[0]} {a[1]} {a[2]} 0)')
            if name == 'create_random_account_with_write_version':
                return V('lean', f'(rnd {self.rnds} {a[0]} {a[1]} {a[2]} {a[3]})')
            return V('lean', f'(rndData {self.rnds} {a[0]} {a[1]} {a[2]} {atom(a[3])} {a[4]})')
        if name == 'create_account_data':
            self.rnds += 1
            pk, o = self.key(), self.key()
            return V('lean', f'(fixed {pk.code} {o.code} {self.lean(args[0])} {self.lean(args[1])})')
        if two == ['MintCreationParams', 'create_default']:
            return V('lean', f'(mintParams {self.lean(args[0])})')
        if two == ['MintCreationParams', 'create_random']:
            self.rnds += 1
            return V('lean', f'(mintRandom {self.rnds} {self.key().code} {self.key().code} {self.lean(args[1])})')
        if two == ['TokenAccountParams', 'create_default']:
            return V('lean', f"(tokenParams {' '.join(self.lean(x) for x in args)})")
        if two == ['TokenAccountParams', 'create_random']:
            self.rnds += 1
            return V('lean', f"(tokenRandom {self.rnds} {self.key().code} {self.key().code} {' '.join(self.lean(x) for x in args[1:])})")
        if name in ('create_mint_account_data', 'create_token_account_data'):
            f = 'mintData' if 'mint' in name else 'tokenData'
            return V('lean', f"({f} {' '.join(atom(self.lean(x)) for x in args)})")
        if name in ('parse_account_data_to_token_params', 'parse_account_data_to_mint_params'):
            v = self.ev(args[0])
            assert v.kind == 'get' and v.some
            return V('parsed', v.code, what='token' if 'token' in name else 'mint')
        raise ValueError(p)

    def ev_method(self, e):
        _, obj, name, args = e
        if name == 'encode':
            return V('lean', f'(text64 {atom(self.lean(args[0]))})')
        if obj[0] == 'range' and name == 'map':
            n = obj[2][1]
            if args[0][2][0] == 'call':
                return V('keys', '', items=[self.key() for _ in range(n)])
            self.rnds += 1
            return V('lean', f'(bytes {self.rnds} {n})')
        v = self.ev(obj)
        if name in ('clone', 'iter', 'cloned', 'to_vec', 'collect', 'collect_vec', 'to_bytes', 'into_string'):
            return V('lean', f'{v.code}.bytes') if name == 'to_bytes' else v
        if name == 'insert' and v.kind == 'skip':
            return v
        if v.kind in ('store', 'cell') and name == 'update_account' or v.kind == 'cell' and name == 'update':
            self.version += 1
            self.emit(f'update {atom(self.lean(args[0]))} {self.lean(args[1])}')
            return V('unit', '')
        if v.kind == 'store' and name == 'initilize_or_update_account':
            self.version += 1
            self.emit(f'init {atom(self.lean(args[0]))}')
            return V('unit', '')
        if v.kind == 'store' and name == 'process_slot_data':
            self.version += 1
            self.emit(f'slot {self.lean(args[0])} {self.lean(args[1])}')
            return V('slotres', f'{self.lean(args[0])} {self.lean(args[1])}', at=len(self.steps) - 1)
        if v.kind == 'cell' and name == 'promote_slot_commitment':
            self.version += 1
            self.emit(None)
            return V('promoted', f'{self.lean(args[0])} {self.lean(args[1])}', at=len(self.steps) - 1)
        if v.kind == 'cell' and name == 'delete':
            self.version += 1
            self.emit('erase')
            return V('unit', '')
        if v.kind == 'cell' and name == 'get_account_data':
            return V('get', self.lean(args[0]), version=self.version, some=False, res=False)
        if v.kind == 'cell' and name == 'get_account_data_filtered':
            return V('filtered', f'{self.lean(args[0])} {self.lean(args[1])}', version=self.version)
        if v.kind == 'store' and name == 'get_account':
            return V('get', f'{self.lean(args[0])} {self.lean(args[1])}', version=self.version, some=False, res=True)
        if v.kind == 'store' and name == 'get_program_accounts':
            return V('gpa', f'{self.lean(args[0])} {self.opt(args[1])} {self.lean(args[2])}', version=self.version,
                     keys=False, len=False)
        if v.kind == 'filterstore' and name in ('add_account_filter', 'add_account_filters'):
            fs = self.lean(args[0])
            self.emit(f"add {fs if name.endswith('s') else '[' + fs + ']'}")
            return V('unit', '')
        if v.kind == 'filterstore' and name in ('contains_filter_internal', 'contains_filter'):
            return V('bool', f'contains {self.lean(args[0])}', want=True)
        if v.kind == 'filterstore' and name == 'satisfies':
            return V('bool', f'satisfies {self.lean(args[0])}', want=True)
        if name == 'unwrap' and v.kind == 'gpa':
            return v
        if name == 'unwrap' and v.kind == 'get':
            if v.res:
                return V('get', v.code, version=v.version, some=v.some, res=False)
            return V('get', v.code, version=v.version, some=True, res=False)
        if v.kind == 'gpa' and name == 'map':
            return V('gpa', v.code, version=v.version, keys=True, len=False)
        if v.kind == 'gpa' and name == 'len':
            return V('gpa', v.code, version=v.version, keys=False, len=True)
        if v.kind == 'gpa' and name == 'contains':
            return V('gpabool', f'gpaHas {v.code} {self.lean(args[0])}', version=v.version)
        if v.kind == 'gpa' and name == 'is_empty':
            return V('gpabool', f'gpaIs {v.code} []', version=v.version)
        if v.kind == 'gpa' and name == 'is_ok':
            return V('gpabool', f'gpaOk {v.code}', version=v.version)
        if v.kind == 'gpa' and name == 'is_err':
            return V('gpabool', f'gpaErr {v.code}', version=v.version)
        if v.kind == 'slotres' and name == 'is_empty':
            return V('slotis', v.code, at=v.at, want='[]')
        raise ValueError(e)

    # statements -------------------------------------------------------------------------------
    def fresh(self, v):
        assert v.version == self.version, v

    def assert_true(self, e):
        if e[0] == 'or':
            (_, a, x), (_, b, y) = e[1], e[2]
            assert a == b
            v = self.ev(a)
            if v.kind == 'slotres':
                self.steps[v.at] = f'slotOneOf {v.code} {self.lean(x)} {self.lean(y)}'
            else:
                self.fresh(v)
                self.emit(f'gpaOneOf {v.code} {self.lean(x)} {self.lean(y)}')
            return
        v = self.ev(e)
        if v.kind == 'bool':
            self.emit(f"{v.code} {'true' if v.want else 'false'}")
        elif v.kind == 'gpabool':
            self.fresh(v)
            self.emit(v.code)
        elif v.kind == 'slotis':
            self.steps[v.at] = f'slotIs {v.code} {v.want}'
        else:
            raise ValueError(e)

    def stored_len(self, e):
        """`store.accounts_store...[*acc_index]...processed_accounts.len()`."""
        return e[0] == 'method' and e[2] == 'len' and e[1][0] == 'field' and e[1][2] == 'processed_accounts'

    def assert_eq(self, a, b):
        if self.stored_len(a):
            self.emit(f'stored {self.env["acc_index"].code} {self.lean(b)}')
            return
        v = self.ev(a)
        w = self.ev(b)
        if v.kind == 'get':
            self.fresh(v)
            self.emit(f'getIs {v.code} {w.code}')
        elif v.kind == 'read':
            self.fresh(v)
            self.emit(f'readIs {v.code} {w.code}')
        elif v.kind == 'filtered':
            self.fresh(v)
            self.emit(f'filteredIs {v.code} {w.code}')
        elif v.kind == 'promoted':
            if w.code == 'none':
                self.steps[v.at] = f'promoteIs {v.code} none'
            else:
                self.steps[v.at] = f'promoteIs {v.code} {w.code}'
        elif v.kind == 'parsed':
            self.emit(f'{v.what}Is {v.code} {w.code}')
        elif v.kind == 'slotres':
            self.steps[v.at] = f'slotIs {v.code} {w.code}'
        elif v.kind == 'gpa':
            self.fresh(v)
            if w.kind == 'error':
                self.emit(f'gpaError {v.code} {w.code}')
            elif v.len:
                self.emit(f'gpaLen {v.code} {w.code}')
            elif v.keys:
                self.emit(f'gpaKeys {v.code} {w.code}')
            else:
                self.emit(f'gpaIs {v.code} {w.code}')
        else:
            raise ValueError((a, b))

    def run(self, body):
        for st in body:
            if st[0] == 'let':
                if st[1] == 'acc_index':
                    self.env['acc_index'] = V('lean', self.lean(st[2][1][3][0]))
                    continue
                self.env[st[1]] = self.ev(st[2])
            else:
                e = st[1]
                if e[0] == 'assert!':
                    self.assert_true(e[1][0])
                elif e[0] == 'assert_eq!':
                    self.assert_eq(*e[1])
                else:
                    self.ev(e)
        assert None not in self.steps
        return self.steps


HEAD = """import {imports}
/-!
# {title}

Generated by `tools/gen_tests.py` from the text of `{path}`.  
These are checks of the model against expectations written by the authors, not proofs of properties.
-/
namespace LAM.Tests.{ns}

{opens}
"""


def wrap(step):
    out, line = [], '   '
    for w in step.split(' '):
        if len(line) + len(w) + 1 > 108:
            out.append(line)
            line = '     '
        line += w if not line.strip() else ' ' + w
    return '\n'.join(out + [line])


def write(fname, path, short, names, title, imports, ns, opens, setup):
    out = [HEAD.format(imports=imports, title=title, path=short, ns=ns, opens=opens)]
    count = 0
    for name, first, last, body in functions('/repo/' + path, names):
        t = Test()
        steps = t.run(body)
        count += len(steps)
        out.append(f"/-- `{short}` {first}-{last}. -/")
        out.append(setup(t, name) + '\n  [' + ',\n'.join(wrap(s) for s in steps).lstrip() + ']\n')
        out.append(f"example : failsAt {name} = none := by decide +kernel\n")
    out.append(f"end LAM.Tests.{ns}\n")
    dest = sys.argv[1] if len(sys.argv) > 1 else '/verif/lean/Verif/Tests'
    open(f'{dest}/{fname}.lean', 'w').write('\n'.join(out))
    print(fname, len(names), 'tests', count, 'steps')


def main():
    write('ByCommitment', 'account_storage/src/account_data_by_commitment.rs', 'account_data_by_commitment.rs',
          ['test_promote_slot_commitment', 'test_update_and_get_account_data', 'test_update_finalized_account',
           'test_update_confirmed_account', 'test_update_processed_account',
           'test_update_and_get_account_data_old_slot_and_write_version', 'test_get_account_data_filtered',
           'test_initialize', 'test_delete'],
          'Unit tests of the per-account states', 'Verif.Tests.Harness', 'ByCommitment', 'open LAM.Tests LAM.Tests.Cell',
          lambda t, n: f'def {n} : List (Step ByCommitment) :=')
    write('Filters', 'common/src/simple_filter_store.rs', 'simple_filter_store.rs',
          ['test_program_that_allows_all', 'test_program_that_partial_filtering', 'test_program_that_partial_filtering_2'],
          'Unit tests of the filter store', 'Verif.Tests.Harness', 'Filters', 'open LAM.Tests LAM.Tests.Simple',
          lambda t, n: f'def {n} : List (Step SimpleFilterStore) :=')
    write('Except', 'common/src/except_filter_store.rs', 'except_filter_store.rs', ['test_except_filter_store'],
          'Unit test of the filter store that excludes', 'Verif.Tests.Harness', 'Except', 'open LAM.Tests LAM.Tests.Excl',
          lambda t, n: f'def {n} : List (Step ExceptFilterStore) :=')
    write('Store', 'account_storage/src/inmemory_account_store.rs', 'inmemory_account_store.rs',
          ['test_account_store', 'test_account_store_if_finalized_clears_old_processed_slots', 'test_get_program_account',
           'test_get_program_account_2', 'writing_old_account_state', 'account_states_with_different_write_version',
           'test_owner_changes', 'test_account_deletions'],
          'Unit tests of the account store', 'Verif.Tests.Harness', 'Store', 'open LAM.Tests LAM.Tests.Accounts',
          lambda t, n: f'def {n} : Script :=\n  script {t.filters}')
    write('TokenStore', 'token_account_storage/tests/token_program_tests.rs', 'tests/token_program_tests.rs',
          ['test_saving_and_loading_token_account'],
          'Integration test of the token store', 'Verif.Tests.Harness', 'TokenStore', 'open LAM.Tests LAM.Tests.Tokens',
          lambda t, n: f'def {n} : List (Step Token.TokenStore) :=')
    write('TokenGpa', 'token_account_storage/tests/token_program_gpa_tests.rs', 'tests/token_program_gpa_tests.rs',
          ['test_gpa_token_account'],
          'Integration test of token queries', 'Verif.Tests.Harness', 'TokenGpa', 'open LAM.Tests LAM.Tests.Tokens',
          lambda t, n: f'def {n} : List (Step Token.TokenStore) :=')


if __name__ == '__main__':
    main()
