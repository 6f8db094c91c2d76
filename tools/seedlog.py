"""Formats the raw results of the wrong-program experiments (argument: raw jsonl) as seeded/LOG.jsonl."""
import json, sys
HARMLESS = {'U9': 'equivalent on results, only proofs by unfolding failed', 'K1': 'only wasteful: claim not broken',
            'K6': 'operation of the test harness', 'L12': 'equivalent on duplicate-free rows', 'L15': 'equivalent',
            'K5b': 'masking itself is unaffected; that the weights are linear is not part of this claim',
            'L1b': 'equivalent on the rows the claim is about (at most 1000 entries): the bracket below is never needed there',
            'FD8': 'identity edit, to test the procedure', 'TM8': 'equivalent: an inactive timer ignores the flag',
            'TA15': 'equivalent: if the default dtype is not double and steps >= 1 the constructor raises anyway; otherwise the variables are the same',
            'BS15': 'repairs the code: the theorem about the defect must fail'}
TIGHT = {'FD7': ['Verif.Numeric.numeric_batch'], 'P2-5': ['Verif.Geometry.se2_log_jac_near'], 'F2': ['Verif.Func.registerAuxVars_iff', 'Verif.Func.registerVars_iff'],
         'FO1': ['Verif.Forward.resolve_means', 'Verif.Forward.forward_bad_args', 'Verif.Forward.forward_spec'], 'EC4': ['Verif.Embodied.reprojection_defaults_accepted'],
         'LD7': ['Verif.Lie.Dispatch.dispatch_results_checked', 'Verif.Lie.Dispatch.dispatch_listed_only', 'Verif.Lie.Dispatch.dispatch_keywords']}
NOTE = {'FD7': 'only an example failed at first; the batch size is now specified by numeric_batch',
        'LD7': 'only an example failed at first (the statements used the conversion of the model); what the torch function receives is now specified independently (plain)',
        'P2-5': 'survived at first (the Jacobian was only stated outside the small-angle branch); the new theorem bounds the series used there',
        'F2': 'survived at first (only the well-formedness of the registered lists was stated); the two new theorems state when register_aux_vars / register_vars succeed, and the edit now breaks registerVars_iff',
        'FO1': 'survived at first (the specification used the parser of the model); backward modes are now specified by their names, independently of the model (resolve_means)',
        'EC4': 'only an example failed at first; the new theorem states when a cost with default calibrations is accepted',
        'N6': 'breaks the recorded history of truncated runs (C57) rather than the iteration split (C32)'}
last = {}
for l in open(sys.argv[1]):
    d = json.loads(l)
    k = d['id']
    if k in last and last[k]['file'] != d['file']: k += 'b'
    d['id'] = k
    last[k] = d
for i, d in last.items():
    fails = d['theorems_failed']
    r = {'id': i, 'definition': d['definition'], 'file': d['file'], 'edit': d['edit'], 'old': d['old'], 'new': d['new'],
         'claim_broken': None if i in HARMLESS else d['claim_broken'], 'theorems_failed': fails,
         'theorems_depending_on_failed': len(d.get('property_theorems_no_longer_proved', [])),
         'theorems_tightened': TIGHT.get(i, d.get('theorems_tightened', []))}
    n = HARMLESS.get(i) or NOTE.get(i)
    if n: r['note'] = n
    print(json.dumps(r, ensure_ascii=False))
