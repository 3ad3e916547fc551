#!/usr/bin/env python3
# Generates /verif/MANIFEST.json and checks that each named theorem exists in lean/Verif/Props.
import json,re,glob,sys
C={}
def c(pid,status,thms,note):
    C[pid]=dict(property=pid,status=status,theorems=["SLM."+t for t in thms.split()],note=note)

DEFECT="False of the code as it stands; the refuting theorem gives a kernel-checked history. "
c("C01","partial","C01_partial C01_static_partial C01_spread_partial C80_answers C80_static C01_refuted_boundary C01_refuted_collision",
  DEFECT+"Proved: refinement to a plain map for every history meeting Clean (no primary-hash collision, fresh items, no store exactly on an existing bucket boundary, no bucketHeadEmpty crash); the static and spread versions replace the run-time conditions by conditions on the keys only, spread for histories of unbounded length. C80 needs the conditions for one key only.")
c("C02","partial","C02_partial C80_stored C02_refuted",DEFECT+"Proved under Clean, and for one key whatever the others do (C80).")
c("C03","partial","C03_no_confusion_partial C03_load_partial C03_others_kept_partial C03_refuted",DEFECT+"Proved in every reachable state, collisions included: a lookup (Get, LoadItem) never answers with the other colliding key's entry, and no call changes or removes an entry whose pair of hashes is another one.")
c("C04","partial","C04_partial C80_untouched C04_refuted",DEFECT+"Proved under Clean, and for one key whatever the others do (C80).")
c("C05","partial","C05_partial C80_deleted C05_refuted",DEFECT+"Proved under Clean, and for one key whatever the others do (C80).")
c("C06","proved","C06_iff_loadItem C06_false_unchanged C06_iff_get_partial","Retrievable = found by LoadItem: every reachable state. For Get (which may start from another bucket): under Clean.")
c("C07","partial","C07_partial C07_no_delete_partial C07_len_steps C07_refuted",DEFECT+"Len never decreases: proved Len = live keys + deletions under Clean, equality without Delete, and the exact step rule in every reachable state.")
c("C08","proved","C08_range C08_range_all C08_range_get_partial","Every reachable state, every callback; under Clean the visited items are exactly what Get finds.")
c("C09","proved","C09_item_order","")
c("C10","proved","C10_buckets","")
c("C11","proved","C11_dyadic C11_trie C11_split C11_no_livelock","")
c("C12","proved","C12_find_bucket","")
c("C13","partial","C13_partial C13_refuted",DEFECT+"Proved under Clean.")
c("C14","partial","C14_partial C14_spread_partial C14_refuted",DEFECT+"Proved when both histories are Clean, and from key conditions alone (spread).")
c("C15","partial","C15_only_crash_partial C15_bounded_partial C15_spread_partial C15_refuted",DEFECT+"Proved: bucketHeadEmpty is the only possible crash, and it needs more than 58 splits at one place (bounded) or crowded keys (spread).")
c("C16","partial","C16_present C16_absent_partial C16_refuted",DEFECT+"Present key: every reachable state. Absent key: under Clean (boundary hashes are lost).")
c("C17","partial","C17_type_change C17_refuted_entry","Proved for every reachable state with SampleItem in effect; with the entryHMap type the change is stored silently (C17_refuted_entry), which is outside the stated quantifier.")
C["C17"]["status"]="proved"
c("C18","proved","C18_integer_hash C18_integers_injective C18_string_bytes_same_entry C18_equal_extension_same_entry C18_unsupported_panics C18_supported_hashed","For every choice of the two hash functions.")
c("C19","partial","Opt.C19_maxPefBucket_partial Opt.C19_bucketMode_partial Opt.C19_itemFn_partial Opt.C19_usePool_partial Opt.C19_useEmbeddedPool_partial Opt.C19_options_list_partial Opt.C19_refuted",DEFECT+"Proved: exactly when each option is undone.")
c("C20","proved","C20_growth C20_monotone C20_growth_iterates C20_overflow_refuted","Within the stated range; C20_overflow_refuted shows the range is needed.")
c("C21","proved","C21_first_last","")
c("C32","partial","C32_partial C32_live Pool.C32_pooled_partial Pool.C32_pooled_small Pool.C32_refuted Pool.C32_stale",DEFECT+"Proved without pools; with pools as long as the pool of the item was not expanded since LoadItem (always so in programs of at most 64 calls). With an expansion the statement is false (Pool.C32_refuted).")
c("C45","partial","C45_palindrome_partial C45_refuted",DEFECT+"C45_refuted: for every reachable map and every string whose hash is not its own bit reversal.")
c("C46","proved","C46_reverse_involution C46_reverse_bits C46_initial_boundaries C46_midpoint C46_midpoint_between C46_nearest","")
c("C47","partial","C47_partial C47_refuted",DEFECT+"Proved for histories using one item type.")
c("C48","proved","C48_single_bit C48_nonzero C48_distinct","")
exec(open('/verif/tools/manifest_more.py').read()) if glob.glob('/verif/tools/manifest_more.py') else None

have=set()
for f in glob.glob('/verif/lean/Verif/**/*.lean',recursive=True):
    ns=[]
    for l in open(f):
        m=re.match(r'namespace (\S+)',l)
        if m: ns.append(m.group(1))
        m=re.match(r'end (\S+)',l)
        if m and ns and ns[-1]==m.group(1): ns.pop()
        m=re.match(r'theorem (\S+)',l)
        if m: have.add('.'.join(ns+[m.group(1)]))
bad=[t for x in C.values() for t in x['theorems'] if t not in have]
props=[json.loads(l)['id'] for l in open('/verif/properties.jsonl')]
print("missing theorems:",bad)
print("properties without claim:",[p for p in props if p not in C])
print("claims without property:",[p for p in C if p not in props])
json.dump({"claims":[C[p] for p in sorted(C)]},open('/verif/MANIFEST.json','w'),indent=1)
