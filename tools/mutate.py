#!/usr/bin/env python3
"""Seeded-bug runner. usage: mutate.py mutations.json
Each entry: {"file": "Model/X.lean", "def": "...", "old": "...", "new": "...", "claim": "C05 ..."}.
Edits that do not type-check are skipped. The edit is applied to a scratch copy (outside the repository), the project is rebuilt there until the first module
fails (or, with FULL=1, to the end), and one line per attempt is appended to seeded/LOG.jsonl with the theorems whose proofs break. The scratch copy is then put
back to the state of the last clean build."""
import json, os, re, shutil, signal, subprocess, sys, time
ROOT = '/verif'
W = os.environ.get('SCRATCH', '/root/work/mut')
PRISTINE = W + '.pristine'
FULL = os.environ.get('FULL') == '1'
def sync():
    shutil.rmtree(W, ignore_errors=True)
    shutil.rmtree(PRISTINE, ignore_errors=True)
    os.makedirs(W)
    subprocess.run(f'git -C {ROOT} archive HEAD lean | tar x -C {W} --strip-components=1', shell=True, check=True)
    if os.path.isdir(ROOT + '/lean/.lake'):
        subprocess.run(['cp', '-a', ROOT + '/lean/.lake', W + '/.lake'], check=True)
    r = subprocess.run(['lake', 'build'], cwd=W, capture_output=True, text=True)
    assert r.returncode == 0, r.stdout[-2000:]
    subprocess.run(['cp', '-a', W + '/.lake/build', PRISTINE], check=True)
def restore(mark):
    for d, _, fs in os.walk(W + '/.lake/build'):
        for x in fs:
            p = os.path.join(d, x)
            if os.path.getmtime(p) >= mark or os.path.getctime(p) >= mark:
                q = PRISTINE + p[len(W + '/.lake/build'):]
                if os.path.exists(q): shutil.copy2(q, p)
                else: os.remove(p)
    for d, _, fs in os.walk(PRISTINE):
        for x in fs:
            q = os.path.join(d, x)
            p = W + '/.lake/build' + q[len(PRISTINE):]
            if not os.path.exists(p): shutil.copy2(q, p)
def thm_at(f, line):
    name = None
    for i, l in enumerate(open(f), 1):
        if i > line: break
        m = re.match(r'\s*(?:private |@\[[^\]]*\] )?(theorem|def|lemma|example|instance)\s*(\S*)', l)
        if m: name = m.group(2) if m.group(1) != 'example' else 'example@%d' % i
    return name
def build(target, stop):
    """The output of `lake build`; if `stop`, only until the first module that fails."""
    p = subprocess.Popen(['lake', 'build'] + target, cwd=W, stdout=subprocess.PIPE, stderr=subprocess.STDOUT, text=True, start_new_session=True)
    out, last = [], ''
    for l in p.stdout:
        out.append(l)
        g = re.match(r'error: (\S+\.lean):', l)
        if g: last = g.group(1)
        # a failure where a second copy of the function is compared with the first one says nothing about the properties: go on
        if stop and l.startswith('error: Lean exited') and not last.startswith(('Verif/Proofs/Leak', 'Verif/Proofs/Cost')):
            os.killpg(p.pid, signal.SIGKILL)
            break
    p.wait()
    return ''.join(out)
def main():
    muts = json.load(open(sys.argv[1]))
    sync()
    for m in muts:
        f = f"{W}/Verif/{m['file']}"
        src = open(f).read()
        if src.count(m['old']) < 1:
            print('NOT FOUND', m['def'], m['old']); continue
        n = m.get('nth', 0)
        parts = src.split(m['old'])
        mut = m['old'].join(parts[:n + 1]) + m['new'] + m['old'].join(parts[n + 1:])
        mark = time.time() - 1
        st = os.stat(f)
        open(f, 'w').write(mut)
        failed = []
        def back():
            open(f, 'w').write(src)
            os.utime(f, (st.st_atime, st.st_mtime))
            restore(mark)
        if 'error' in build(['Verif.' + m['file'][:-5].replace('/', '.')], True):
            back(); print('ILL-TYPED', m['def'], m['new'], flush=True); continue
        out = build([], not FULL)
        for l in out.splitlines():
            g = re.match(r'error: (\S+\.lean):(\d+):\d+', l)
            if g:
                t = thm_at(f'{W}/{g.group(1)}', int(g.group(2)))
                if t and t not in failed: failed.append(t)
        blocked = sorted(set(re.findall(r'^✖ \[\d+/\d+\] Building (\S+)', out, re.M)))
        back()
        rec = {"definition": m['def'], "edit": m['old'] + '  ==>  ' + m['new'], "claim": m['claim'], "failed": failed,
               "modules_with_errors": blocked, "tightened": m.get('tightened', []), "survived": not failed and not blocked}
        if not FULL and not rec['survived']: rec['stopped_at_first_failing_module'] = True
        if m.get('note'): rec['note'] = m['note']
        print(json.dumps(rec, ensure_ascii=False), flush=True)
        with open(ROOT + '/seeded/LOG.jsonl', 'a') as g:
            g.write(json.dumps(rec, ensure_ascii=False) + '\n')
main()
