import Verif.Depend.Table
/-
The dependency declarations of `Beads`, `Atoms`, `NormalModes`, `Cell`, `ForceBead`, `ForceComponent`, `Forces`,
`Ensemble` and the integrators, transcribed row by row: for each depend object the objects its function reads and the
objects its declaration lists.

Simplifications: closed paths, distinguishable particles, at least two beads, no bias; one force component of nonzero
weight; the per-bead objects (`Atoms`, `ForceBead`) are one row each, standing for any one bead; the objects of the
auxiliary displaced ring polymer of the Suzuki-Chin force are not listed (they belong to the call).
-/
namespace Verif.Depend

/-- All rows, as declared in the code. -/
def piTable : Table := [
  /-  0 beads.py:92-94 -/ ⟨"m", .leaf, []⟩,
  /-  1 ensembles.py:93 -/ ⟨"temp", .leaf, []⟩,
  /-  2 ensembles.py:111 -/ ⟨"eens", .leaf, []⟩,
  /-  3 motion dt, dynamics.py -/ ⟨"mdt", .leaf, []⟩,
  /-  4 dynamics.py (piped by reference, 300) -/ ⟨"nmts", .leaf, []⟩,
  /-  5 normalmodes.py:118 -/ ⟨"nm_freqs", .leaf, []⟩,
  /-  6 normalmodes.py:112 -/ ⟨"mode", .leaf, []⟩,
  /-  7 normalmodes.py:117 -/ ⟨"propagator", .leaf, []⟩,
  /-  8 cell.py:47 -/ ⟨"h", .leaf, []⟩,
  /-  9 forces.py:318 -/ ⟨"weight", .leaf, []⟩,
  /- 10 forces.py:874 -/ ⟨"alpha", .leaf, []⟩,
  /- 11 beads.py:115, normalmodes.py:206-214 -/ ⟨"q", .peer 0, []⟩,
  /- 12 normalmodes.py:192-197 -/ ⟨"qnm", .peer 0, []⟩,
  /- 13 beads.py:116, normalmodes.py:207-215 -/ ⟨"p", .peer 1, []⟩,
  /- 14 normalmodes.py:198-203 -/ ⟨"pnm", .peer 1, []⟩,
  /- 15 cell.py:48-53 -/ ⟨"ih", .computed [8], [8]⟩,
  /- 16 cell.py:54 -/ ⟨"V", .computed [8], [8]⟩,
  /- 17 beads.py:95-102, mtom3 -/ ⟨"m3", .computed [0], [0]⟩,
  /- 18 beads.py:103-110, m3tosm3 -/ ⟨"sm3", .computed [17], [17]⟩,
  /- 19 beads.py:119-124 -/ ⟨"qc", .computed [11], [11]⟩,
  /- 20 beads.py:125-130 -/ ⟨"pc", .computed [13], [13]⟩,
  /- 21 beads.py:133-135, get_vpath -/ ⟨"vpath", .computed [11, 17], [11, 17]⟩,
  /- 22 beads.py:136-141, get_fpath: m3 is read but not declared -/ ⟨"fpath", .computed [11, 17], [11]⟩,
  /- 23 atoms.py:114-119 (one per bead) -/ ⟨"a_m3", .computed [0], [0]⟩,
  /- 24 atoms.py:122-124 -/ ⟨"a_kin", .computed [13, 23], [13, 23]⟩,
  /- 25 atoms.py:125-127 -/ ⟨"a_kstress", .computed [13, 0], [13, 0]⟩,
  /- 26 beads.py:151-156 -/ ⟨"b_kins", .computed [24], [24]⟩,
  /- 27 beads.py:157-159 -/ ⟨"b_kin", .computed [26], [26]⟩,
  /- 28 beads.py:160-165 -/ ⟨"b_kstress", .computed [25], [25]⟩,
  /- 29 normalmodes.py:256-258 -/ ⟨"omegan", .computed [1], [1]⟩,
  /- 30 normalmodes.py:259-261 -/ ⟨"omegan2", .computed [29], [29]⟩,
  /- 31 normalmodes.py:262-267 -/ ⟨"omegak", .computed [29], [29]⟩,
  /- 32 normalmodes.py:268-273 -/ ⟨"omegak2", .computed [31], [31]⟩,
  /- 33 normalmodes.py:276-281 -/ ⟨"o_omegak", .computed [29], [29]⟩,
  /- 34 normalmodes.py:284-289, get_nmm with mode = rpmd -/ ⟨"nm_factor", .computed [6, 5], [5, 6]⟩,
  /- 35 normalmodes.py:284-289, get_nmm with mode = pa-cmd, manual or wmax-cmd: omegak is read but not declared -/ ⟨"nm_factor_pa", .computed [6, 5, 31], [5, 6]⟩,
  /- 36 normalmodes.py:297-302 -/ ⟨"dynm3", .computed [17, 34], [34, 17]⟩,
  /- 37 normalmodes.py:303-308 -/ ⟨"dynomegak", .computed [31, 34], [34, 31]⟩,
  /- 38 normalmodes.py:310-311 (dpipe) -/ ⟨"nm_dt", .computed [3], [3]⟩,
  /- 39 normalmodes.py:313-318 -/ ⟨"prop_pq", .computed [38, 7, 34, 31], [31, 34, 38, 7]⟩,
  /- 40 normalmodes.py:321-326 -/ ⟨"prop_pq_ms", .computed [39, 17], [39, 17]⟩,
  /- 41 normalmodes.py:355-360 -/ ⟨"kins", .computed [14, 18, 34], [14, 18, 34]⟩,
  /- 42 normalmodes.py:361-363 -/ ⟨"kin", .computed [41], [41]⟩,
  /- 43 normalmodes.py:364-369 -/ ⟨"kstress", .computed [14, 34, 18], [14, 18, 34]⟩,
  /- 44 normalmodes.py:371-382, get_vspring_and_fspring for closed paths: q and o_omegak are declared but not read -/ ⟨"v_and_fs", .computed [12, 18, 32, 17, 31], [12, 31, 33, 17, 11]⟩,
  /- 45 normalmodes.py:394-399 -/ ⟨"vspring", .computed [44], [44]⟩,
  /- 46 normalmodes.py:401-406 -/ ⟨"fspring", .computed [44], [44]⟩,
  /- 47 forces.py:815-818 (contracted positions) -/ ⟨"mq", .computed [11], [11]⟩,
  /- 48 forces.py:70, 100-101 (one per bead) -/ ⟨"ufvx", .computed [47, 8], [47, 8]⟩,
  /- 49 forces.py:104-106 -/ ⟨"fb_pot", .computed [48], [48]⟩,
  /- 50 forces.py:108-113 -/ ⟨"fb_vir", .computed [48], [48]⟩,
  /- 51 forces.py:115-120 -/ ⟨"fb_f", .computed [48], [48]⟩,
  /- 52 forces.py:122-124 -/ ⟨"fb_extra", .computed [48], [48]⟩,
  /- 53 forces.py:371-376 -/ ⟨"fc_f", .computed [51], [51]⟩,
  /- 54 forces.py:379-384 -/ ⟨"fc_pots", .computed [49], [49]⟩,
  /- 55 forces.py:385-390 -/ ⟨"fc_virs", .computed [50], [50]⟩,
  /- 56 forces.py:391-396 -/ ⟨"fc_extras", .computed [52], [52]⟩,
  /- 57 forces.py:399-401 -/ ⟨"fc_pot", .computed [54], [54]⟩,
  /- 58 forces.py:402-407 -/ ⟨"fc_vir", .computed [55], [55]⟩,
  /- 59 forces.py:832-837, 992-993 -/ ⟨"f", .computed [9, 53], [53, 9]⟩,
  /- 60 forces.py:840-845, 994 -/ ⟨"pots", .computed [9, 54], [54, 9]⟩,
  /- 61 forces.py:848-853, 995 -/ ⟨"virs", .computed [9, 55], [55, 9]⟩,
  /- 62 forces.py:855-860, extra_combine: weight is read but not declared -/ ⟨"extras", .computed [9, 56], [56]⟩,
  /- 63 forces.py:863-865 -/ ⟨"pot", .computed [60], [60]⟩,
  /- 64 forces.py:867-872 -/ ⟨"vir", .computed [61], [61]⟩,
  /- 65 normalmodes.py:234-239 -/ ⟨"fnm", .computed [59], [59]⟩,
  /- 66 system.py:112 (dpipe) -/ ⟨"f_omegan2", .computed [30], [30]⟩,
  /- 67 forces.py:906-910 -/ ⟨"coeff1", .computed [], []⟩,
  /- 68 forces.py:912-917 -/ ⟨"coeff2", .computed [10, 66], [10, 66]⟩,
  /- 69 forces.py:888-899 -/ ⟨"potssc", .computed [67, 60, 68, 59, 17], [0, 59, 60, 10, 66]⟩,
  /- 70 forces.py:901-903 -/ ⟨"potsc", .computed [69], [69]⟩,
  /- 71 forces.py:920-925, forcesvirs_4th_order: alpha is read but not declared, pots declared but not read -/ ⟨"fvir4", .computed [9, 59, 17, 53, 55, 10, 8, 11], [0, 59, 60]⟩,
  /- 72 forces.py:928-933 -/ ⟨"f4", .computed [71], [71]⟩,
  /- 73 forces.py:935-940 -/ ⟨"fsc1", .computed [67, 59], [67, 59]⟩,
  /- 74 forces.py:942-947 -/ ⟨"fsc2", .computed [68, 72], [68, 72]⟩,
  /- 75 forces.py:949-954 -/ ⟨"fsc", .computed [73, 74], [73, 74]⟩,
  /- 76 forces.py:957-962 -/ ⟨"vir4", .computed [71], [71]⟩,
  /- 77 forces.py:964-969 -/ ⟨"virssc1", .computed [67, 61], [67, 61]⟩,
  /- 78 forces.py:971-976 -/ ⟨"virssc2", .computed [68, 76], [68, 76]⟩,
  /- 79 forces.py:978-983 -/ ⟨"virssc", .computed [77, 78], [77, 78]⟩,
  /- 80 forces.py:985-989: virssc is read, potssc declared -/ ⟨"virsc", .computed [79], [69]⟩,
  /- 81 ensembles.py:173-179, get_econs (no bias) -/ ⟨"econs", .computed [45, 42, 63, 2], [42, 63, 45, 2]⟩,
  /- 82 ensembles.py:216-222, get_lpens (no bias) -/ ⟨"lpens", .computed [63, 42, 45, 1], [1, 42, 63, 45]⟩,
  /- 83 dynamics.py:311: nmts is read but not declared -/ ⟨"inmts", .computed [4], []⟩,
  /- 84 dynamics.py (qdt) -/ ⟨"qdt", .computed [3, 83], [3, 83]⟩,
  /- 85 dynamics.py:319-323: qdt and m3 are read but not declared -/ ⟨"qdt_on_m", .computed [84, 17], []⟩
]

/-- The rows of `piTable` whose reads and declarations do not involve a faulty row. -/
def coreTable : Table := [
  /-  0 beads.py:92-94 -/ ⟨"m", .leaf, []⟩,
  /-  1 ensembles.py:93 -/ ⟨"temp", .leaf, []⟩,
  /-  2 ensembles.py:111 -/ ⟨"eens", .leaf, []⟩,
  /-  3 motion dt, dynamics.py -/ ⟨"mdt", .leaf, []⟩,
  /-  4 dynamics.py (piped by reference, 300) -/ ⟨"nmts", .leaf, []⟩,
  /-  5 normalmodes.py:118 -/ ⟨"nm_freqs", .leaf, []⟩,
  /-  6 normalmodes.py:112 -/ ⟨"mode", .leaf, []⟩,
  /-  7 normalmodes.py:117 -/ ⟨"propagator", .leaf, []⟩,
  /-  8 cell.py:47 -/ ⟨"h", .leaf, []⟩,
  /-  9 forces.py:318 -/ ⟨"weight", .leaf, []⟩,
  /- 10 forces.py:874 -/ ⟨"alpha", .leaf, []⟩,
  /- 11 beads.py:115, normalmodes.py:206-214 -/ ⟨"q", .peer 0, []⟩,
  /- 12 normalmodes.py:192-197 -/ ⟨"qnm", .peer 0, []⟩,
  /- 13 beads.py:116, normalmodes.py:207-215 -/ ⟨"p", .peer 1, []⟩,
  /- 14 normalmodes.py:198-203 -/ ⟨"pnm", .peer 1, []⟩,
  /- 15 cell.py:48-53 -/ ⟨"ih", .computed [8], [8]⟩,
  /- 16 cell.py:54 -/ ⟨"V", .computed [8], [8]⟩,
  /- 17 beads.py:95-102, mtom3 -/ ⟨"m3", .computed [0], [0]⟩,
  /- 18 beads.py:103-110, m3tosm3 -/ ⟨"sm3", .computed [17], [17]⟩,
  /- 19 beads.py:119-124 -/ ⟨"qc", .computed [11], [11]⟩,
  /- 20 beads.py:125-130 -/ ⟨"pc", .computed [13], [13]⟩,
  /- 21 beads.py:133-135, get_vpath -/ ⟨"vpath", .computed [11, 17], [11, 17]⟩,
  /- 22 atoms.py:114-119 (one per bead) -/ ⟨"a_m3", .computed [0], [0]⟩,
  /- 23 atoms.py:122-124 -/ ⟨"a_kin", .computed [13, 22], [13, 22]⟩,
  /- 24 atoms.py:125-127 -/ ⟨"a_kstress", .computed [13, 0], [13, 0]⟩,
  /- 25 beads.py:151-156 -/ ⟨"b_kins", .computed [23], [23]⟩,
  /- 26 beads.py:157-159 -/ ⟨"b_kin", .computed [25], [25]⟩,
  /- 27 beads.py:160-165 -/ ⟨"b_kstress", .computed [24], [24]⟩,
  /- 28 normalmodes.py:256-258 -/ ⟨"omegan", .computed [1], [1]⟩,
  /- 29 normalmodes.py:259-261 -/ ⟨"omegan2", .computed [28], [28]⟩,
  /- 30 normalmodes.py:262-267 -/ ⟨"omegak", .computed [28], [28]⟩,
  /- 31 normalmodes.py:268-273 -/ ⟨"omegak2", .computed [30], [30]⟩,
  /- 32 normalmodes.py:276-281 -/ ⟨"o_omegak", .computed [28], [28]⟩,
  /- 33 normalmodes.py:284-289, get_nmm with mode = rpmd -/ ⟨"nm_factor", .computed [6, 5], [5, 6]⟩,
  /- 34 normalmodes.py:297-302 -/ ⟨"dynm3", .computed [17, 33], [33, 17]⟩,
  /- 35 normalmodes.py:303-308 -/ ⟨"dynomegak", .computed [30, 33], [33, 30]⟩,
  /- 36 normalmodes.py:310-311 (dpipe) -/ ⟨"nm_dt", .computed [3], [3]⟩,
  /- 37 normalmodes.py:313-318 -/ ⟨"prop_pq", .computed [36, 7, 33, 30], [30, 33, 36, 7]⟩,
  /- 38 normalmodes.py:321-326 -/ ⟨"prop_pq_ms", .computed [37, 17], [37, 17]⟩,
  /- 39 normalmodes.py:355-360 -/ ⟨"kins", .computed [14, 18, 33], [14, 18, 33]⟩,
  /- 40 normalmodes.py:361-363 -/ ⟨"kin", .computed [39], [39]⟩,
  /- 41 normalmodes.py:364-369 -/ ⟨"kstress", .computed [14, 33, 18], [14, 18, 33]⟩,
  /- 42 forces.py:815-818 (contracted positions) -/ ⟨"mq", .computed [11], [11]⟩,
  /- 43 forces.py:70, 100-101 (one per bead) -/ ⟨"ufvx", .computed [42, 8], [42, 8]⟩,
  /- 44 forces.py:104-106 -/ ⟨"fb_pot", .computed [43], [43]⟩,
  /- 45 forces.py:108-113 -/ ⟨"fb_vir", .computed [43], [43]⟩,
  /- 46 forces.py:115-120 -/ ⟨"fb_f", .computed [43], [43]⟩,
  /- 47 forces.py:122-124 -/ ⟨"fb_extra", .computed [43], [43]⟩,
  /- 48 forces.py:371-376 -/ ⟨"fc_f", .computed [46], [46]⟩,
  /- 49 forces.py:379-384 -/ ⟨"fc_pots", .computed [44], [44]⟩,
  /- 50 forces.py:385-390 -/ ⟨"fc_virs", .computed [45], [45]⟩,
  /- 51 forces.py:391-396 -/ ⟨"fc_extras", .computed [47], [47]⟩,
  /- 52 forces.py:399-401 -/ ⟨"fc_pot", .computed [49], [49]⟩,
  /- 53 forces.py:402-407 -/ ⟨"fc_vir", .computed [50], [50]⟩,
  /- 54 forces.py:832-837, 992-993 -/ ⟨"f", .computed [9, 48], [48, 9]⟩,
  /- 55 forces.py:840-845, 994 -/ ⟨"pots", .computed [9, 49], [49, 9]⟩,
  /- 56 forces.py:848-853, 995 -/ ⟨"virs", .computed [9, 50], [50, 9]⟩,
  /- 57 forces.py:863-865 -/ ⟨"pot", .computed [55], [55]⟩,
  /- 58 forces.py:867-872 -/ ⟨"vir", .computed [56], [56]⟩,
  /- 59 normalmodes.py:234-239 -/ ⟨"fnm", .computed [54], [54]⟩,
  /- 60 system.py:112 (dpipe) -/ ⟨"f_omegan2", .computed [29], [29]⟩,
  /- 61 forces.py:906-910 -/ ⟨"coeff1", .computed [], []⟩,
  /- 62 forces.py:912-917 -/ ⟨"coeff2", .computed [10, 60], [10, 60]⟩,
  /- 63 forces.py:888-899 -/ ⟨"potssc", .computed [61, 55, 62, 54, 17], [0, 54, 55, 10, 60]⟩,
  /- 64 forces.py:901-903 -/ ⟨"potsc", .computed [63], [63]⟩,
  /- 65 forces.py:935-940 -/ ⟨"fsc1", .computed [61, 54], [61, 54]⟩,
  /- 66 forces.py:964-969 -/ ⟨"virssc1", .computed [61, 56], [61, 56]⟩
]

/-- `piTable` with the eight faulty declarations corrected: fpath, nm_factor_pa, v_and_fs, extras, fvir4, virsc, inmts, qdt_on_m. -/
def repairedTable : Table := [
  /-  0 beads.py:92-94 -/ ⟨"m", .leaf, []⟩,
  /-  1 ensembles.py:93 -/ ⟨"temp", .leaf, []⟩,
  /-  2 ensembles.py:111 -/ ⟨"eens", .leaf, []⟩,
  /-  3 motion dt, dynamics.py -/ ⟨"mdt", .leaf, []⟩,
  /-  4 dynamics.py (piped by reference, 300) -/ ⟨"nmts", .leaf, []⟩,
  /-  5 normalmodes.py:118 -/ ⟨"nm_freqs", .leaf, []⟩,
  /-  6 normalmodes.py:112 -/ ⟨"mode", .leaf, []⟩,
  /-  7 normalmodes.py:117 -/ ⟨"propagator", .leaf, []⟩,
  /-  8 cell.py:47 -/ ⟨"h", .leaf, []⟩,
  /-  9 forces.py:318 -/ ⟨"weight", .leaf, []⟩,
  /- 10 forces.py:874 -/ ⟨"alpha", .leaf, []⟩,
  /- 11 beads.py:115, normalmodes.py:206-214 -/ ⟨"q", .peer 0, []⟩,
  /- 12 normalmodes.py:192-197 -/ ⟨"qnm", .peer 0, []⟩,
  /- 13 beads.py:116, normalmodes.py:207-215 -/ ⟨"p", .peer 1, []⟩,
  /- 14 normalmodes.py:198-203 -/ ⟨"pnm", .peer 1, []⟩,
  /- 15 cell.py:48-53 -/ ⟨"ih", .computed [8], [8]⟩,
  /- 16 cell.py:54 -/ ⟨"V", .computed [8], [8]⟩,
  /- 17 beads.py:95-102, mtom3 -/ ⟨"m3", .computed [0], [0]⟩,
  /- 18 beads.py:103-110, m3tosm3 -/ ⟨"sm3", .computed [17], [17]⟩,
  /- 19 beads.py:119-124 -/ ⟨"qc", .computed [11], [11]⟩,
  /- 20 beads.py:125-130 -/ ⟨"pc", .computed [13], [13]⟩,
  /- 21 beads.py:133-135, get_vpath -/ ⟨"vpath", .computed [11, 17], [11, 17]⟩,
  /- 22 beads.py:136-141, get_fpath: m3 is read but not declared -/ ⟨"fpath", .computed [11, 17], [11, 17]⟩,
  /- 23 atoms.py:114-119 (one per bead) -/ ⟨"a_m3", .computed [0], [0]⟩,
  /- 24 atoms.py:122-124 -/ ⟨"a_kin", .computed [13, 23], [13, 23]⟩,
  /- 25 atoms.py:125-127 -/ ⟨"a_kstress", .computed [13, 0], [13, 0]⟩,
  /- 26 beads.py:151-156 -/ ⟨"b_kins", .computed [24], [24]⟩,
  /- 27 beads.py:157-159 -/ ⟨"b_kin", .computed [26], [26]⟩,
  /- 28 beads.py:160-165 -/ ⟨"b_kstress", .computed [25], [25]⟩,
  /- 29 normalmodes.py:256-258 -/ ⟨"omegan", .computed [1], [1]⟩,
  /- 30 normalmodes.py:259-261 -/ ⟨"omegan2", .computed [29], [29]⟩,
  /- 31 normalmodes.py:262-267 -/ ⟨"omegak", .computed [29], [29]⟩,
  /- 32 normalmodes.py:268-273 -/ ⟨"omegak2", .computed [31], [31]⟩,
  /- 33 normalmodes.py:276-281 -/ ⟨"o_omegak", .computed [29], [29]⟩,
  /- 34 normalmodes.py:284-289, get_nmm with mode = rpmd -/ ⟨"nm_factor", .computed [6, 5], [5, 6]⟩,
  /- 35 normalmodes.py:284-289, get_nmm with mode = pa-cmd, manual or wmax-cmd: omegak is read but not declared -/ ⟨"nm_factor_pa", .computed [6, 5, 31], [5, 6, 31]⟩,
  /- 36 normalmodes.py:297-302 -/ ⟨"dynm3", .computed [17, 34], [34, 17]⟩,
  /- 37 normalmodes.py:303-308 -/ ⟨"dynomegak", .computed [31, 34], [34, 31]⟩,
  /- 38 normalmodes.py:310-311 (dpipe) -/ ⟨"nm_dt", .computed [3], [3]⟩,
  /- 39 normalmodes.py:313-318 -/ ⟨"prop_pq", .computed [38, 7, 34, 31], [31, 34, 38, 7]⟩,
  /- 40 normalmodes.py:321-326 -/ ⟨"prop_pq_ms", .computed [39, 17], [39, 17]⟩,
  /- 41 normalmodes.py:355-360 -/ ⟨"kins", .computed [14, 18, 34], [14, 18, 34]⟩,
  /- 42 normalmodes.py:361-363 -/ ⟨"kin", .computed [41], [41]⟩,
  /- 43 normalmodes.py:364-369 -/ ⟨"kstress", .computed [14, 34, 18], [14, 18, 34]⟩,
  /- 44 normalmodes.py:371-382, get_vspring_and_fspring for closed paths: q and o_omegak are declared but not read -/ ⟨"v_and_fs", .computed [12, 18, 32, 17, 31], [12, 31, 17]⟩,
  /- 45 normalmodes.py:394-399 -/ ⟨"vspring", .computed [44], [44]⟩,
  /- 46 normalmodes.py:401-406 -/ ⟨"fspring", .computed [44], [44]⟩,
  /- 47 forces.py:815-818 (contracted positions) -/ ⟨"mq", .computed [11], [11]⟩,
  /- 48 forces.py:70, 100-101 (one per bead) -/ ⟨"ufvx", .computed [47, 8], [47, 8]⟩,
  /- 49 forces.py:104-106 -/ ⟨"fb_pot", .computed [48], [48]⟩,
  /- 50 forces.py:108-113 -/ ⟨"fb_vir", .computed [48], [48]⟩,
  /- 51 forces.py:115-120 -/ ⟨"fb_f", .computed [48], [48]⟩,
  /- 52 forces.py:122-124 -/ ⟨"fb_extra", .computed [48], [48]⟩,
  /- 53 forces.py:371-376 -/ ⟨"fc_f", .computed [51], [51]⟩,
  /- 54 forces.py:379-384 -/ ⟨"fc_pots", .computed [49], [49]⟩,
  /- 55 forces.py:385-390 -/ ⟨"fc_virs", .computed [50], [50]⟩,
  /- 56 forces.py:391-396 -/ ⟨"fc_extras", .computed [52], [52]⟩,
  /- 57 forces.py:399-401 -/ ⟨"fc_pot", .computed [54], [54]⟩,
  /- 58 forces.py:402-407 -/ ⟨"fc_vir", .computed [55], [55]⟩,
  /- 59 forces.py:832-837, 992-993 -/ ⟨"f", .computed [9, 53], [53, 9]⟩,
  /- 60 forces.py:840-845, 994 -/ ⟨"pots", .computed [9, 54], [54, 9]⟩,
  /- 61 forces.py:848-853, 995 -/ ⟨"virs", .computed [9, 55], [55, 9]⟩,
  /- 62 forces.py:855-860, extra_combine: weight is read but not declared -/ ⟨"extras", .computed [9, 56], [56, 9]⟩,
  /- 63 forces.py:863-865 -/ ⟨"pot", .computed [60], [60]⟩,
  /- 64 forces.py:867-872 -/ ⟨"vir", .computed [61], [61]⟩,
  /- 65 normalmodes.py:234-239 -/ ⟨"fnm", .computed [59], [59]⟩,
  /- 66 system.py:112 (dpipe) -/ ⟨"f_omegan2", .computed [30], [30]⟩,
  /- 67 forces.py:906-910 -/ ⟨"coeff1", .computed [], []⟩,
  /- 68 forces.py:912-917 -/ ⟨"coeff2", .computed [10, 66], [10, 66]⟩,
  /- 69 forces.py:888-899 -/ ⟨"potssc", .computed [67, 60, 68, 59, 17], [0, 59, 60, 10, 66]⟩,
  /- 70 forces.py:901-903 -/ ⟨"potsc", .computed [69], [69]⟩,
  /- 71 forces.py:920-925, forcesvirs_4th_order: alpha is read but not declared, pots declared but not read -/ ⟨"fvir4", .computed [9, 59, 17, 53, 55, 10, 8, 11], [0, 59, 55, 9, 10]⟩,
  /- 72 forces.py:928-933 -/ ⟨"f4", .computed [71], [71]⟩,
  /- 73 forces.py:935-940 -/ ⟨"fsc1", .computed [67, 59], [67, 59]⟩,
  /- 74 forces.py:942-947 -/ ⟨"fsc2", .computed [68, 72], [68, 72]⟩,
  /- 75 forces.py:949-954 -/ ⟨"fsc", .computed [73, 74], [73, 74]⟩,
  /- 76 forces.py:957-962 -/ ⟨"vir4", .computed [71], [71]⟩,
  /- 77 forces.py:964-969 -/ ⟨"virssc1", .computed [67, 61], [67, 61]⟩,
  /- 78 forces.py:971-976 -/ ⟨"virssc2", .computed [68, 76], [68, 76]⟩,
  /- 79 forces.py:978-983 -/ ⟨"virssc", .computed [77, 78], [77, 78]⟩,
  /- 80 forces.py:985-989: virssc is read, potssc declared -/ ⟨"virsc", .computed [79], [79]⟩,
  /- 81 ensembles.py:173-179, get_econs (no bias) -/ ⟨"econs", .computed [45, 42, 63, 2], [42, 63, 45, 2]⟩,
  /- 82 ensembles.py:216-222, get_lpens (no bias) -/ ⟨"lpens", .computed [63, 42, 45, 1], [1, 42, 63, 45]⟩,
  /- 83 dynamics.py:311: nmts is read but not declared -/ ⟨"inmts", .computed [4], [4]⟩,
  /- 84 dynamics.py (qdt) -/ ⟨"qdt", .computed [3, 83], [3, 83]⟩,
  /- 85 dynamics.py:319-323: qdt and m3 are read but not declared -/ ⟨"qdt_on_m", .computed [84, 17], [84, 17]⟩
]

/-- Row numbers of `piTable`, by name. -/
def piIdx (n : String) : Nat := piTable.findIdx (fun r => r.name == n)

end Verif.Depend
