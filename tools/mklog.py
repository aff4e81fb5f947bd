#!/usr/bin/env python3
"""mklog.py OUT.jsonl... : write seeded/LOG.jsonl from mutation runs (in the order of the runs). Uses /tmp/dep/deps.tsv
(claimed theorem -> constants its proof uses) to name the claims that rest on a failed lemma."""
import sys,json,re,os
deps={}
if os.path.exists('/tmp/dep/deps.tsv'):
    for l in open('/tmp/dep/deps.tsv'):
        n,d=l.rstrip('\n').split('\t'); deps[n]=set(x.split('.',1)[1] if x.startswith('Verif.') else x for x in d.split())
TIGHT={'priority':['C115_votes_come_first'],'Label.kind':['C127_filed_together_iff_same_pallet'],'reports':['C126_bridge_outcome_reports','C126_bridge_event_reports'],
 'need':['C131_accounts_make_their_own_calls'],'provable':['C131_proxies_run_proven_calls'],'init':['C58_reference_taken_iff_minted','C81_fresh_reference_can_be_minted'],
 'bridgeTx':['C135_active_request_stays_until_decided','C135_bridge_contract_stays'],
 'fileReport':['C107_reports_are_announced'],'EndToEnd.readEvent':['C99_every_event_is_applied_as_logged'], # theorems added or strengthened because a mutant survived or only an example noticed it
 'EventCheck.lower':['C91_hex_texts'],'EventCheck.trim0x':['C91_status_texts'],'EventCheck.digits':['C91_status_texts'],
 'EventCheck.fromRadix16':['C91_status_texts'],'EventCheck.confirmations':['C91_receipt_without_block_counts_as_final'],
 'EventCheck.isValid':['C93_blocking_data_partial'],'EventCheck.nextToValidate':['C92_reaches_the_first_unvalidated'],
 'Deposits.legacyHandler':['C90_accepted_means_carried_out'],
 'Eip712.parseMsg':['C85_wrong_length_panics'],'Eip712.Instance.valid':['C85_usable_instances'],
 'Calldata.toTy':['C86_selector'],'Calldata.processTxHash':['C86_only_hashes_are_read'],
 'Discovery.hasCastedVote':['C98_no_second_vote'],
 'Avn.removeValidator':['C26_removed_validator_cannot_vote'],
 'Common.verifySignature':['C72_verified_means_signed'],'Common.verifySrSignature':['C72_verified_means_signed'],
 'EthBridge.processEvent':['C78_world_is_the_fold'],
 'EthBridge.computeStartBlock':['C15_vote_is_aligned_and_lags'],
 'BridgeTx.paramsFit':['C79_publish_records_its_arguments'],
 'BridgeTx.extendParams':['C79_message_in_every_state'],'BridgeTx.setUpTx':['C79_message_in_every_state'],
 'BridgeTx.enoughConfirmations':['C79_confirmation_recorded_iff'],'BridgeTx.completeTransaction':['C80_settled_record'],
 'Summary.noSummaryOffence':['C83_offences_are_exactly_those_due'],
 'EthEvents.settle':['C37_processing_records'],'EthEvents.validChallenge':['C39_challenges_are_signed_by_the_challenger'],
 'ProxyCalls.proof?':['C61_unlisted_call_no_effect'],'Fees.withdrawFee':['C65_fee_needs_funds'],
 'Nft.singleId':['C81 (via singleId_eq)'],'Nft.batchNftId':['C81 (via batchNftId_eq)'],
 'EventsClient.parseLog':['C71_transfer_reported_as_logged'],'EventsClient.partitionToVote':['C74_events_are_of_the_range'],
 'Validators.isActive':['C55_no_request_while_change_open'],'Validators.newSession':['C53/C55 (via newSession_keeps)'],
 'Staking.nomFree':['C84_stake_is_covered','C84_overdraft_is_refused'],'Staking.accumulate':['C82_stored_growth_is_the_sum'],
 'Staking.untriggered':['C82_published_growth_is_the_sum'],'Parsing.parseNftCancelListing':['C27_full_claim_false']}
runs=[]
for f in sys.argv[1:]:
    for l in open(f): runs.append((f,json.loads(l)))
last={}
for f,d in runs:
    if d['status']=='killed': last[(d['definition'],d['edit'])]=d
out=[]
for f,d in runs:
    ex=[x for x in d['failed'] if x.startswith('example@')]; th=[x for x in d['failed'] if not x.startswith('example@')]
    dep=sorted({c.split('.')[-1] for c,s in deps.items() for x in th if any(y.split('.')[-1]==x.split('.')[-1] for y in s)}) if th else []
    weak = d['status']=='SURVIVED' or (d['status']=='killed' and not th)
    st={'killed':'detected' if th else 'detected by an example only','SURVIVED':'not detected','invalid':'edit did not compile'}[d['status']]
    rec={'definition':d['definition'],'file':d['file'],'edit':d['edit'],'claim_broken':d['claim'],'result':st,
         'theorems_failed':th,'examples_failed':len(ex),'claims_depending':[c for c in dep if re.match(r'C\d\d',c)][:12],
         'theorems_tightened':TIGHT.get(d['definition'],[]) if weak else []}
    if d['definition']=='Parsing.parseNftCancelListing' and d['status']=='SURVIVED':
        rec['note']='the edit repairs the code (an error instead of a panic); no claim is broken by it. The witness of the panic was added.'
    if d['definition']=='EventCheck.findEvent' and d['status']=='SURVIVED':
        rec['note']='equivalent: an Ethereum address in a receipt always has 20 bytes, so this panic is unreachable.'
    if d['definition']=='genesis' and d['edit']=='changed := false  ==>  changed := true':
        rec['note']='equivalent: at genesis the queued validators are the authors, so the first session sets the same list either way.'
    NOTES={'the block is not compared':'equivalent: the filter handed to the scan of a block is one for that block (filterFor), so the second comparison never decides.',
      'auto ≤→< in `if batchBound ≤ (s.batches batch).length then (s1, some .batchOutOfBounds)`':'equivalent: the supply bound is met first, this refusal is unreachable.',
      'record admission depends on progress':'no claim is broken: the edit refuses more, and the claim about recorded roots is that they are not refused after the record, which stays as it was.'}
    if d['status']=='SURVIVED' and d['claim'] in NOTES: rec['note']=NOTES[d['claim']]; rec['theorems_tightened']=[]
    if d['status']=='SURVIVED' and d['definition']=='RootData.dflt': rec['note']='equivalent: the default record is never read as a root that counts.'
    if weak and (d['definition'],d['edit']) in last: rec['after_tightening']='detected: '+', '.join(last[(d['definition'],d['edit'])]['failed'][:4])
    out.append(json.dumps(rec,ensure_ascii=False))
open('/verif/seeded/LOG.jsonl','w').write('\n'.join(out)+'\n'); print(len(out))
