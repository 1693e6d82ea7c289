#!/usr/bin/env python3
"""Write seeded/LOG.jsonl from the raw results of seeded/run.py (one line per attempt)."""
import json
TIGHT={
 'M503':['C62_ctor','C62_tempered_ctor'],
 'M367':['C64_step_target'],'M460':['C69_fm_stats'],'M461':['C69_fm_stats'],
 'M434':['C38_layer','C38_layers'],'M452':['C05_history'],
 'M417':['C09_lambda','C09_lambda_sample'],'M345':['C04_other_files'],'M352':['C01_negative_start'],
 'M317':['C55_training'],'M304':['C13_tempering'],
 'M225':['C35_flag_off','C35_flag_on'],'M228':['C29_optimization_draws'],'M229':['C53_call'],
 'M241':['C60_trainer'],'M242':['C60_trainer'],'M243':['C60_trainer'],'M251':['C86_realNVP','C86_spline'],'M252':['C86_realNVP','C86_spline'],
 'M263':['C06_saved_partial'],
 'M192':['C75_any_ranges','C75_gap','C75_gap_mass'],
 'M134':['C58_training_source'],'M136':['C61_tempered_steps'],'M172':['C79_any_momentum','C79_outliers'],
 'M116':['C29_sample'],'M118':['C09_sample'],'M119':['C08_start'],'M121':['C60_order'],'M122':['C60_order'],
 'M006':['C29_grw_draws','C29_mala_draws','C29_hmc_draws'],
 'M008':['C23_proposal_law','C23_moves'],
 'M024':['C24_trajectory'],
 'M066':['C33_gaps'],
 'M078':['C02_calls'],'M084':['C02_calls'],'M087':['C02_calls'],'M088':['C02_calls'],'M091':['C02_calls'],
 'M109':['C77_direction'],'M099':['C48_call'],'M100':['C48_call'],
}
NOTE={
 'M552':'C116 is about a unit mass matrix, with which the edited drift is the same; the edit breaks C24 only',
 'M516':'the recorded log-densities (C15) stay right under this edit, which makes the decisions wrong: C26, C107 and C109 fail',
 'M503':'C62 did not say what calling the object computes (C64_tempered did, and failed); the two constructor theorems now do',
 'M031':'the edit does not type-check; redone as M516',
 'M474':'the edit does not type-check; redone as M516',
 'M057':'the edit does not type-check; redone as M517',
 'M301':'the edit does not type-check; redone as M518',
 'M167':'the edit does not type-check; redone as M519',
 'M248':'the edit does not type-check; redone as M521',
 'M435':'the edit does not type-check; redone as M522',
 'M438':'the edit does not type-check; redone as M523',
 'M492':'the edit does not type-check; redone as M524',
 'M460':'no theorem covered the statistics a flow-matching model gets; C69_fm_stats added',
 'M461':'no theorem covered the statistics a flow-matching model gets; C69_fm_stats added',
 'M427':'C53 is about any AdamOptimization object; that the constructor stores the bounds it is given is C77 here, which fails',
 'M449':'C37 is about MaskedCouplingLayer; AffineCoupling belongs to C38, which fails',
 'M450':'C37 is about MaskedCouplingLayer; AffineCoupling belongs to C38, which fails',
 'M455':'the edit does not type-check (no negation on an arbitrary number type); M503 is another wrong LogPDF.call',
 'M367':'no theorem said what a step strategy does with a TemperedPDF; C64_step_target says that it steps on the likelihood',
 'M355':'which key initialises the flow is not part of a claim: C86 describes the initial parameters for every key',
 'M258':'the edited program computes the same value, so no claim becomes false',
 'M340':'C29 is about the keys of the sampler; the draws of the flow itself are C56, which fails',
 'M417':'C09 took what a strategy does as given; C09_lambda and C09_lambda_sample say what a Lambda strategy does when the callable raises',
 'M404':'C87 compares two training lengths of the same program; the claims about what training does, which are listed, fail',
 'M410':'C08 composes calls whatever they do; what a step call returns and records is C17 and C19, which fail',
 'M411':'C17 says which of the produced rows are recorded; the proofs about the rows that a group call produces (groupSample_ok and what rests on it) fail',
 'M412':'C22 is about one kernel step; that the strategy applies the kernel to the current position is C14 and C16, which fail',
 'M415':'C26 is about one sweep of the kernel; what the call does with it is stated at the level of the call, where the listed theorems fail',
 'M266':'C33 is about the adaptation rule; what the call stores is C35_training, which fails',
 'M303':'this edit repairs the cursor (C18), so no claim becomes false; the proofs about the cursor notice it',
 'M304':'C13 was about step strategies when this was run; C13_tempering now covers the tempering call',
 'M306':'C31 is about one sweep at given temperatures; that the call uses the stored ladder is C32, which fails',
 'M308':'C08 composes calls whatever they do; that the bundles\' lambdas take effect is C57-C61 and C66, which fail',
 'M313':'what the edit changes (whitening with the advancing model) is the same program as long as training leaves the statistics alone; the proof notices it, no claim is false',
 'M315':'C69 is about the statistics themselves; that training installs those of the data rows is C68, which fails',
 'M317':'C55 spoke of Path.sample only; C55_training says what the optimiser is given',
 'M319':'C29 is about the sampler\'s keys; the independence of the components is C75, which fails',
 'M225':'C35 did not say that the flags the bundles put into the tempering strategy are those of the schedule; C35_flag_off and C35_flag_on do',
 'M228':'the keys of the optimisation strategy were not covered by C29; C29_optimization_draws covers them',
 'M229':'C53 spoke of the iteration; C53_call now speaks of the strategy call, including the number of steps and the recorded optima',
 'M241':'C60 did not mention the training parameters; C60_trainer says the trainer of the bundle is built from the user\'s values',
 'M242':'C60 did not mention the training parameters; C60_trainer says the trainer of the bundle is built from the user\'s values',
 'M243':'C60 did not mention the training parameters; C60_trainer says the trainer of the bundle is built from the user\'s values',
 'M251':'C47 is about the layout of the conditioners; how they are initialised is the new property C86',
 'M252':'C47 is about the layout of the conditioners; how they are initialised is the new property C86',
 'M263':'C06 only said that loading fails; C06_saved_partial says what the file contains',
 'M226':'the edit does not type-check; redone as M520',
 'M238':'run stopped after four rounds; the base case of C59 (flowInv_fresh) is a definitional equality that the edit breaks',
 'M239':'the claim is about the run; C58, C61 and C66 fail',
 'M218':'C49 is the epoch on given data; which rows become the data is C51, which fails together with C29 and C48',
 'M222':'C13 is about the step strategies; the tempering call reads each chain\'s own replicas in C32, whose proof fails',
 'M224':'C31 is about one sweep at given temperatures; that the call uses the stored ladder is C32, which fails',
 'M207':'C25 is about the positions; the recorded log-density is C14/C16/C20, which fail',
 'M192':'C75 spoke of ranges with non-negative bounds, or used the bound computation of the model itself; the ranges are now described independently (Spec.InRange, Spec.entries)',
 'M132':'too short a loss buffer makes the run raise: C60_capacity and C66 are the claims that fail; C50 and C57 speak of runs that complete',
 'M134':'only the totality of the run noticed; C58_training_source now says which resources a training call of the bundles depends on',
 'M136':'no theorem mentioned n_tempered_steps = 0; C61_tempered_steps does',
 'M137':'C65 is a statement about production calls, whatever the initial replicas; C61 fails',
 'M145':'C45 is stated for the spline flow whose base density enters through C46_gaussian, which fails; C45_spline takes the normalisation of the base as proved there',
 'M165':'the log-determinant of the inverse is C41_inv_logdet, which fails; C42 is the forward direction',
 'M172':'no theorem depended on the clipping (C52 holds for any gradient, C53 is about another optimiser); C79 does',
 'M116':'C29 spoke of traces of calls, not of what sample() does with the keys; C29_sample now derives the trace from a returned sample() call',
 'M118':'C09 spoke of the loop inside sample(); C09_sample now says the same of sample() itself',
 'M119':'no theorem mentioned a single starting position; C08_start does',
 'M121':'C60 counted the step and training calls only; C60_order gives the whole schedule',
 'M122':'C60 counted the step and training calls only; C60_order gives the whole schedule',
 'M008':'a wrong drift coefficient keeps MALA exact (the same mean is used forward and backward), so reversibility alone did not notice; the law of the proposal is now pinned down',
 'M024':'a wrong sign of the force keeps leapfrog reversible and volume-preserving; C24_trajectory now compares the integrator with the textbook recursion',
 'M056':'C33 (adaptation) is not violated by an edit of the exchange sweep; C30, C31 and C32 are, and they fail',
 'M058':'C33 (adaptation) is not violated by an edit of the exchange sweep; C30, C31 and C32 are, and they fail',
 'M060':'C61 (accounting and the temperature array) is not violated; C32 is, and it fails',
 'M061':'C14 speaks of recorded rows; the tempered replicas do not record log-densities, so it is not violated; C32 is, and it fails',
 'M066':'C33 only said that the ladder stays anchored and ordered, whatever the factors; the statement now contains the adaptation rule (C33_gaps)',
 'M078':'C02 spoke only of appends to one buffer; C02_calls now says that N calls of a step strategy leave the concatenation of the recorded blocks in the buffers',
 'M084':'C02 spoke only of appends to one buffer; C02_calls now says that N calls of a step strategy leave the concatenation of the recorded blocks in the buffers',
 'M087':'C02 spoke only of appends to one buffer; C02_calls now says that N calls of a step strategy leave the concatenation of the recorded blocks in the buffers',
 'M088':'C02 spoke only of appends to one buffer; C02_calls now says that N calls of a step strategy leave the concatenation of the recorded blocks in the buffers',
 'M091':'C02 spoke only of appends to one buffer; C02_calls now says that N calls of a step strategy leave the concatenation of the recorded blocks in the buffers',
 'M099':'C48 spoke of train() only; C48_call now says what a call of the training strategy leaves in the resources',
 'M100':'C48 spoke of train() only; C48_call now says what a call of the training strategy leaves in the resources',
 'M109':'no property said in which direction the optimiser moves; C77 does',
 'M106':'C30 speaks of the exchange sweep, which is not edited; C32 and C35 fail',
 'M079':'C17 says which of the produced rows are recorded, for whatever the kernel returns; the number of proposals is C15/C26/C57, which fail',
 'M089':'C08 (each strategy receives what the previous one returned) is not violated; what a step strategy returns is C17/C28/C57, which fail',
 'M026':'C27 (batching) is not violated by reusing a key; C26 and C29 are, and they fail',
}
try:
    from mutlog_extra import TIGHT as T2, NOTE as N2
    TIGHT.update(T2); NOTE.update(N2)
except ImportError: pass
out=open('/verif/seeded/LOG.jsonl','w')
seen={}
for f in ['/tmp/mut/results.jsonl']:
    for l in open(f):
        r=json.loads(l)
        if r.get('error'): continue
        seen[r['id']]=r
for i in sorted(seen):
    r=seen[i]
    d=dict(id=i,definition=f"{r['file']}: {r['definition']}",edit=r['edit'],bug=r['bug'],claim=r['claim_broken'],theorems_failed=r['failed_directly'],
        property_theorems_lost=r['property_theorems_lost'],theorems_tightened=TIGHT.get(i,[]))
    if r['model_error']: d['note']='the edit does not type-check in the model, so every theorem about the definition is lost'
    if i in NOTE: d['note']=NOTE[i]
    out.write(json.dumps(d,ensure_ascii=False)+'\n')
print(len(seen))
