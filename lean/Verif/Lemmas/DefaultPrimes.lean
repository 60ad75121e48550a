import Verif.Lemmas.Pratt

/-!
# Certificates of primality of the moduli listed in the code

Every entry `(p, a, [(f, k), …])` gives the factorisation of `p - 1` into primes and an element `a` of order `p - 1`; the factors are
below 17424 or are earlier entries.  The entries are checked in the kernel (`Lemmas/Pratt`), a block at a time.
-/

namespace FastKsw

def defaultCerts : List (ℕ × ℕ × List (ℕ × ℕ)) :=
  [(17449, 14, [(2, 3), (3, 1), (727, 1)]),
   (17483, 2, [(2, 1), (8741, 1)]),
   (17669, 2, [(2, 2), (7, 1), (631, 1)]),
   (17761, 19, [(2, 5), (3, 1), (5, 1), (37, 1)]),
   (18191, 29, [(2, 1), (5, 1), (17, 1), (107, 1)]),
   (18199, 11, [(2, 1), (3, 3), (337, 1)]),
   (18307, 11, [(2, 1), (3, 4), (113, 1)]),
   (18539, 6, [(2, 1), (13, 1), (23, 1), (31, 1)]),
   (18731, 2, [(2, 1), (5, 1), (1873, 1)]),
   (19961, 6, [(2, 3), (5, 1), (499, 1)]),
   (20123, 2, [(2, 1), (10061, 1)]),
   (20173, 2, [(2, 2), (3, 1), (41, 2)]),
   (20743, 5, [(2, 1), (3, 1), (3457, 1)]),
   (21841, 11, [(2, 4), (3, 1), (5, 1), (7, 1), (13, 1)]),
   (22039, 6, [(2, 1), (3, 1), (3673, 1)]),
   (22193, 3, [(2, 4), (19, 1), (73, 1)]),
   (22783, 3, [(2, 1), (3, 1), (3797, 1)]),
   (23201, 3, [(2, 5), (5, 2), (29, 1)]),
   (23831, 11, [(2, 1), (5, 1), (2383, 1)]),
   (23899, 2, [(2, 1), (3, 1), (7, 1), (569, 1)]),
   (23929, 7, [(2, 3), (3, 1), (997, 1)]),
   (24967, 3, [(2, 1), (3, 2), (19, 1), (73, 1)]),
   (24979, 2, [(2, 1), (3, 1), (23, 1), (181, 1)]),
   (26209, 11, [(2, 5), (3, 2), (7, 1), (13, 1)]),
   (26317, 6, [(2, 2), (3, 2), (17, 1), (43, 1)]),
   (27481, 7, [(2, 3), (3, 1), (5, 1), (229, 1)]),
   (29851, 2, [(2, 1), (3, 1), (5, 2), (199, 1)]),
   (29959, 6, [(2, 1), (3, 1), (4993, 1)]),
   (31069, 2, [(2, 2), (3, 2), (863, 1)]),
   (32771, 2, [(2, 1), (5, 1), (29, 1), (113, 1)]),
   (33083, 2, [(2, 1), (7, 1), (17, 1), (139, 1)]),
   (33757, 2, [(2, 2), (3, 1), (29, 1), (97, 1)]),
   (35201, 3, [(2, 7), (5, 2), (11, 1)]),
   (35339, 2, [(2, 1), (17669, 1)]),
   (35801, 3, [(2, 3), (5, 2), (179, 1)]),
   (36791, 17, [(2, 1), (5, 1), (13, 1), (283, 1)]),
   (36793, 15, [(2, 3), (3, 2), (7, 1), (73, 1)]),
   (38329, 13, [(2, 3), (3, 1), (1597, 1)]),
   (38737, 5, [(2, 4), (3, 2), (269, 1)]),
   (39569, 3, [(2, 4), (2473, 1)]),
   (41161, 22, [(2, 3), (3, 1), (5, 1), (7, 3)]),
   (42101, 2, [(2, 2), (5, 2), (421, 1)]),
   (42379, 2, [(2, 1), (3, 1), (7, 1), (1009, 1)]),
   (43331, 2, [(2, 1), (5, 1), (7, 1), (619, 1)]),
   (43669, 2, [(2, 2), (3, 2), (1213, 1)]),
   (43691, 6, [(2, 1), (5, 1), (17, 1), (257, 1)]),
   (45737, 3, [(2, 3), (5717, 1)]),
   (46349, 2, [(2, 2), (11587, 1)]),
   (47491, 2, [(2, 1), (3, 1), (5, 1), (1583, 1)]),
   (52457, 3, [(2, 3), (79, 1), (83, 1)]),
   (53773, 2, [(2, 2), (3, 1), (4481, 1)]),
   (58237, 15, [(2, 2), (3, 1), (23, 1), (211, 1)]),
   (59441, 3, [(2, 4), (5, 1), (743, 1)]),
   (61681, 29, [(2, 4), (3, 1), (5, 1), (257, 1)]),
   (63727, 6, [(2, 1), (3, 1), (13, 1), (19, 1), (43, 1)]),
   (63997, 2, [(2, 2), (3, 1), (5333, 1)]),
   (65521, 17, [(2, 4), (3, 2), (5, 1), (7, 1), (13, 1)]),
   (69001, 19, [(2, 3), (3, 1), (5, 3), (23, 1)]),
   (69463, 6, [(2, 1), (3, 2), (17, 1), (227, 1)]),
   (73387, 2, [(2, 1), (3, 5), (151, 1)]),
   (73583, 5, [(2, 1), (36791, 1)]),
   (74897, 3, [(2, 4), (31, 1), (151, 1)]),
   (74903, 5, [(2, 1), (17, 1), (2203, 1)]),
   (76259, 2, [(2, 1), (7, 1), (13, 1), (419, 1)]),
   (76871, 7, [(2, 1), (5, 1), (7687, 1)]),
   (79139, 2, [(2, 1), (39569, 1)]),
   (85597, 2, [(2, 2), (3, 1), (7, 1), (1019, 1)]),
   (87383, 5, [(2, 1), (43691, 1)]),
   (91183, 3, [(2, 1), (3, 1), (7, 1), (13, 1), (167, 1)]),
   (95327, 5, [(2, 1), (7, 1), (11, 1), (619, 1)]),
   (97987, 2, [(2, 1), (3, 1), (7, 1), (2333, 1)]),
   (101873, 3, [(2, 4), (6367, 1)]),
   (102301, 7, [(2, 2), (3, 1), (5, 2), (11, 1), (31, 1)]),
   (105517, 2, [(2, 2), (3, 3), (977, 1)]),
   (107719, 3, [(2, 1), (3, 1), (13, 1), (1381, 1)]),
   (107867, 2, [(2, 1), (11, 1), (4903, 1)]),
   (110581, 2, [(2, 2), (3, 1), (5, 1), (19, 1), (97, 1)]),
   (120739, 2, [(2, 1), (3, 1), (20123, 1)]),
   (122921, 3, [(2, 3), (5, 1), (7, 1), (439, 1)]),
   (130057, 5, [(2, 3), (3, 1), (5419, 1)]),
   (131071, 3, [(2, 1), (3, 1), (5, 1), (17, 1), (257, 1)]),
   (131101, 17, [(2, 2), (3, 1), (5, 2), (19, 1), (23, 1)]),
   (133153, 7, [(2, 5), (3, 1), (19, 1), (73, 1)]),
   (136399, 7, [(2, 1), (3, 1), (127, 1), (179, 1)]),
   (139813, 5, [(2, 2), (3, 1), (61, 1), (191, 1)]),
   (144037, 2, [(2, 2), (3, 2), (4001, 1)]),
   (144629, 2, [(2, 2), (11, 1), (19, 1), (173, 1)]),
   (148471, 3, [(2, 1), (3, 1), (5, 1), (7, 2), (101, 1)]),
   (152519, 11, [(2, 1), (76259, 1)]),
   (153743, 5, [(2, 1), (76871, 1)]),
   (157523, 2, [(2, 1), (17, 1), (41, 1), (113, 1)]),
   (163487, 5, [(2, 1), (43, 1), (1901, 1)]),
   (170689, 22, [(2, 6), (3, 1), (7, 1), (127, 1)]),
   (174749, 3, [(2, 2), (7, 1), (79, 2)]),
   (174761, 3, [(2, 3), (5, 1), (17, 1), (257, 1)]),
   (174767, 5, [(2, 1), (87383, 1)]),
   (198841, 7, [(2, 3), (3, 1), (5, 1), (1657, 1)]),
   (199729, 7, [(2, 4), (3, 2), (19, 1), (73, 1)]),
   (202343, 5, [(2, 1), (7, 1), (97, 1), (149, 1)]),
   (206489, 3, [(2, 3), (53, 1), (487, 1)]),
   (207127, 7, [(2, 1), (3, 2), (37, 1), (311, 1)]),
   (233021, 2, [(2, 2), (5, 1), (61, 1), (191, 1)]),
   (252289, 13, [(2, 7), (3, 3), (73, 1)]),
   (261251, 2, [(2, 1), (5, 4), (11, 1), (19, 1)]),
   (262139, 2, [(2, 1), (53, 1), (2473, 1)]),
   (262147, 2, [(2, 1), (3, 1), (43691, 1)]),
   (262151, 13, [(2, 1), (5, 2), (7, 2), (107, 1)]),
   (277883, 2, [(2, 1), (11, 1), (17, 1), (743, 1)]),
   (281609, 3, [(2, 3), (35201, 1)]),
   (284059, 2, [(2, 1), (3, 2), (43, 1), (367, 1)]),
   (294337, 5, [(2, 6), (3, 2), (7, 1), (73, 1)]),
   (299603, 2, [(2, 1), (59, 1), (2539, 1)]),
   (315047, 5, [(2, 1), (157523, 1)]),
   (329773, 6, [(2, 2), (3, 1), (27481, 1)]),
   (341521, 21, [(2, 4), (3, 1), (5, 1), (1423, 1)]),
   (375623, 5, [(2, 1), (13, 1), (14447, 1)]),
   (381301, 6, [(2, 2), (3, 1), (5, 2), (31, 1), (41, 1)]),
   (383291, 2, [(2, 1), (5, 1), (38329, 1)]),
   (413267, 2, [(2, 1), (7, 2), (4217, 1)]),
   (426089, 3, [(2, 3), (13, 1), (17, 1), (241, 1)]),
   (429497, 3, [(2, 3), (37, 1), (1451, 1)]),
   (503159, 13, [(2, 1), (19, 1), (13241, 1)]),
   (511243, 2, [(2, 1), (3, 1), (139, 1), (613, 1)]),
   (524231, 21, [(2, 1), (5, 1), (7, 1), (7489, 1)]),
   (524287, 3, [(2, 1), (3, 3), (7, 1), (19, 1), (73, 1)]),
   (524309, 2, [(2, 2), (23, 1), (41, 1), (139, 1)]),
   (524369, 3, [(2, 4), (13, 1), (2521, 1)]),
   (524411, 2, [(2, 1), (5, 1), (229, 2)]),
   (524429, 2, [(2, 2), (43, 1), (3049, 1)]),
   (555767, 5, [(2, 1), (277883, 1)]),
   (559243, 5, [(2, 1), (3, 2), (31069, 1)]),
   (563219, 2, [(2, 1), (281609, 1)]),
   (588673, 5, [(2, 7), (3, 2), (7, 1), (73, 1)]),
   (699077, 2, [(2, 2), (7, 1), (24967, 1)]),
   (860369, 3, [(2, 4), (53773, 1)]),
   (1118479, 3, [(2, 1), (3, 1), (131, 1), (1423, 1)]),
   (1194041, 3, [(2, 3), (5, 1), (29851, 1)]),
   (1214641, 31, [(2, 4), (3, 2), (5, 1), (7, 1), (241, 1)]),
   (1223179, 2, [(2, 1), (3, 1), (11, 1), (43, 1), (431, 1)]),
   (1226783, 5, [(2, 1), (167, 1), (3673, 1)]),
   (1516583, 5, [(2, 1), (31, 1), (61, 1), (401, 1)]),
   (1844917, 2, [(2, 2), (3, 1), (153743, 1)]),
   (2097131, 2, [(2, 1), (5, 1), (7, 1), (29959, 1)]),
   (2156683, 11, [(2, 1), (3, 1), (11, 1), (41, 1), (797, 1)]),
   (2388083, 2, [(2, 1), (1194041, 1)]),
   (2485513, 5, [(2, 3), (3, 3), (37, 1), (311, 1)]),
   (2739133, 6, [(2, 2), (3, 2), (11, 1), (6917, 1)]),
   (2796203, 5, [(2, 1), (23, 1), (89, 1), (683, 1)]),
   (3579139, 2, [(2, 1), (3, 2), (198841, 1)]),
   (3780781, 2, [(2, 2), (3, 1), (5, 1), (61, 1), (1033, 1)]),
   (3834797, 2, [(2, 2), (7, 1), (151, 1), (907, 1)]),
   (4129777, 5, [(2, 4), (3, 2), (7, 1), (17, 1), (241, 1)]),
   (4194277, 5, [(2, 2), (3, 1), (193, 1), (1811, 1)]),
   (4721467, 5, [(2, 1), (3, 1), (593, 1), (1327, 1)]),
   (4793489, 3, [(2, 4), (7, 1), (127, 1), (337, 1)]),
   (4793501, 2, [(2, 2), (5, 3), (9587, 1)]),
   (5064817, 5, [(2, 4), (3, 1), (105517, 1)]),
   (6710887, 3, [(2, 1), (3, 2), (7, 1), (13, 1), (17, 1), (241, 1)]),
   (7064089, 11, [(2, 3), (3, 1), (294337, 1)]),
   (7255007, 5, [(2, 1), (11, 1), (329773, 1)]),
   (8388683, 2, [(2, 1), (41, 1), (102301, 1)]),
   (8626733, 2, [(2, 2), (2156683, 1)]),
   (8947843, 2, [(2, 1), (3, 1), (911, 1), (1637, 1)]),
   (9587003, 2, [(2, 1), (4793501, 1)]),
   (9868769, 3, [(2, 5), (7, 1), (13, 1), (3389, 1)]),
   (12201587, 2, [(2, 1), (61, 1), (103, 1), (971, 1)]),
   (15694753, 5, [(2, 5), (3, 1), (163487, 1)]),
   (16777291, 2, [(2, 1), (3, 1), (5, 1), (559243, 1)]),
   (18046081, 17, [(2, 7), (3, 2), (5, 1), (13, 1), (241, 1)]),
   (20648891, 6, [(2, 1), (5, 1), (89, 1), (23201, 1)]),
   (26843549, 2, [(2, 2), (6710887, 1)]),
   (27919939, 2, [(2, 1), (3, 1), (107, 1), (157, 1), (277, 1)]),
   (33554383, 3, [(2, 1), (3, 1), (1367, 1), (4091, 1)]),
   (33554473, 10, [(2, 3), (3, 1), (7, 1), (199729, 1)]),
   (33554503, 6, [(2, 1), (3, 2), (149, 1), (12511, 1)]),
   (35791373, 2, [(2, 2), (8947843, 1)]),
   (38347913, 3, [(2, 3), (4793489, 1)]),
   (38417597, 2, [(2, 2), (7, 1), (857, 1), (1601, 1)]),
   (43826197, 6, [(2, 2), (3, 1), (197, 1), (18539, 1)]),
   (44739139, 2, [(2, 1), (3, 1), (17, 1), (31, 1), (14149, 1)]),
   (78290489, 3, [(2, 3), (19, 1), (29, 1), (17761, 1)]),
   (81421181, 3, [(2, 2), (5, 1), (59, 1), (69001, 1)]),
   (89478437, 2, [(2, 2), (73, 1), (181, 1), (1693, 1)]),
   (89478503, 5, [(2, 1), (131, 1), (341521, 1)]),
   (94168519, 6, [(2, 1), (3, 1), (15694753, 1)]),
   (95410589, 2, [(2, 2), (7, 1), (13, 1), (61, 1), (4297, 1)]),
   (133644289, 31, [(2, 14), (3, 1), (2719, 1)]),
   (133857281, 3, [(2, 15), (5, 1), (19, 1), (43, 1)]),
   (134217973, 6, [(2, 2), (3, 4), (7, 1), (23, 1), (31, 1), (83, 1)]),
   (134250497, 3, [(2, 15), (17, 1), (241, 1)]),
   (134348801, 3, [(2, 17), (5, 2), (41, 1)]),
   (134397953, 3, [(2, 14), (13, 1), (631, 1)]),
   (150700607, 5, [(2, 1), (7, 1), (3121, 1), (3449, 1)]),
   (157613479, 3, [(2, 1), (3, 1), (11, 1), (2388083, 1)]),
   (199765921, 7, [(2, 5), (3, 1), (5, 1), (29, 1), (113, 1), (127, 1)]),
   (268435331, 2, [(2, 1), (5, 1), (47, 1), (439, 1), (1301, 1)]),
   (268435463, 5, [(2, 1), (4057, 1), (33083, 1)]),
   (268435523, 2, [(2, 1), (71, 1), (79, 1), (23929, 1)]),
   (536870683, 2, [(2, 1), (3, 2), (3581, 1), (8329, 1)]),
   (582368447, 5, [(2, 1), (11, 1), (47, 1), (563219, 1)]),
   (599760877, 5, [(2, 2), (3, 1), (11, 1), (13, 1), (181, 1), (1931, 1)]),
   (691516747, 5, [(2, 1), (3, 2), (38417597, 1)]),
   (883319243, 2, [(2, 1), (13, 1), (733, 1), (46349, 1)]),
   (1052164237, 6, [(2, 2), (3, 1), (5519, 1), (15887, 1)]),
   (1073479681, 11, [(2, 18), (3, 2), (5, 1), (7, 1), (13, 1)]),
   (1073643521, 6, [(2, 15), (5, 1), (6553, 1)]),
   (1073692673, 3, [(2, 14), (13, 1), (71, 2)]),
   (1073750017, 5, [(2, 13), (3, 1), (43691, 1)]),
   (1073872897, 7, [(2, 17), (3, 1), (2731, 1)]),
   (1073971201, 11, [(2, 15), (3, 1), (5, 2), (19, 1), (23, 1)]),
   (1074266113, 5, [(2, 19), (3, 1), (683, 1)]),
   (1841342479, 3, [(2, 1), (3, 1), (19, 1), (439, 1), (36793, 1)]),
   (3937373779, 2, [(2, 1), (3, 1), (13, 1), (173, 1), (431, 1), (677, 1)]),
   (3969356057, 3, [(2, 3), (6761, 1), (73387, 1)]),
   (4294475777, 5, [(2, 15), (83, 1), (1579, 1)]),
   (4294991873, 3, [(2, 13), (29, 1), (101, 1), (179, 1)]),
   (4295049217, 10, [(2, 14), (3, 1), (87383, 1)]),
   (4295294977, 5, [(2, 16), (3, 1), (7, 1), (3121, 1)]),
   (4295589889, 11, [(2, 15), (3, 1), (37, 1), (1181, 1)]),
   (4295688193, 5, [(2, 16), (3, 2), (7283, 1)]),
   (6373980451, 2, [(2, 1), (3, 3), (5, 2), (4721467, 1)]),
   (7818749353, 5, [(2, 3), (3, 2), (23, 1), (4721467, 1)]),
   (8588230657, 5, [(2, 17), (3, 1), (21841, 1)]),
   (8588820481, 7, [(2, 16), (3, 1), (5, 1), (8737, 1)]),
   (8588886017, 3, [(2, 20), (8191, 1)]),
   (8589279233, 3, [(2, 17), (19, 1), (3449, 1)]),
   (8589475841, 3, [(2, 16), (5, 1), (11, 1), (2383, 1)]),
   (8589852673, 5, [(2, 14), (3, 1), (174761, 1)]),
   (8589934567, 7, [(2, 1), (3, 2), (389, 1), (1226783, 1)]),
   (8590163969, 3, [(2, 15), (262151, 1)]),
   (8590458881, 6, [(2, 19), (5, 1), (29, 1), (113, 1)]),
   (8590688257, 10, [(2, 15), (3, 1), (31, 1), (2819, 1)]),
   (8590983169, 7, [(2, 20), (3, 1), (2731, 1)]),
   (8591147009, 3, [(2, 15), (19, 1), (13799, 1)]),
   (8591835137, 3, [(2, 16), (131101, 1)]),
   (8592949249, 7, [(2, 17), (3, 1), (13, 1), (41, 2)]),
   (9950331473, 5, [(2, 4), (17, 1), (2011, 1), (18191, 1)]),
   (10521642371, 2, [(2, 1), (5, 1), (1052164237, 1)]),
   (17176854529, 11, [(2, 17), (3, 2), (14561, 1)]),
   (17178525697, 5, [(2, 15), (3, 1), (174749, 1)]),
   (17179410433, 15, [(2, 16), (3, 1), (59, 1), (1481, 1)]),
   (17179672577, 3, [(2, 16), (11, 1), (23831, 1)]),
   (17179967489, 3, [(2, 15), (29, 1), (101, 1), (179, 1)]),
   (17180262401, 3, [(2, 17), (5, 2), (7, 2), (107, 1)]),
   (17180295169, 13, [(2, 15), (3, 1), (174767, 1)]),
   (17180393473, 10, [(2, 19), (3, 2), (11, 1), (331, 1)]),
   (17180557313, 3, [(2, 15), (524309, 1)]),
   (17180950529, 3, [(2, 15), (7, 1), (74903, 1)]),
   (17181442049, 3, [(2, 19), (32771, 1)]),
   (17183014913, 3, [(2, 20), (7, 1), (2341, 1)]),
   (17183408129, 3, [(2, 17), (31, 1), (4229, 1)]),
   (17183932417, 5, [(2, 17), (3, 2), (7, 1), (2081, 1)]),
   (20361326441, 6, [(2, 3), (5, 1), (7, 1), (13, 1), (19, 1), (37, 1), (73, 1), (109, 1)]),
   (22966300319, 7, [(2, 1), (13, 1), (883319243, 1)]),
   (34359754753, 5, [(2, 14), (3, 2), (43, 1), (5419, 1)]),
   (34359771137, 3, [(2, 15), (17, 1), (61681, 1)]),
   (48867183457, 5, [(2, 5), (3, 1), (7, 1), (13, 1), (19, 1), (37, 1), (73, 1), (109, 1)]),
   (68681465857, 5, [(2, 18), (3, 2), (43, 1), (677, 1)]),
   (68682907649, 3, [(2, 17), (23, 1), (22783, 1)]),
   (68684873729, 3, [(2, 20), (31, 1), (2113, 1)]),
   (68685398017, 5, [(2, 19), (3, 1), (43669, 1)]),
   (68686184449, 19, [(2, 18), (3, 2), (7, 1), (4159, 1)]),
   (68693655553, 5, [(2, 17), (3, 1), (97, 1), (1801, 1)]),
   (68695490561, 3, [(2, 17), (5, 1), (37, 1), (2833, 1)]),
   (68695621633, 15, [(2, 18), (3, 2), (11, 1), (2647, 1)]),
   (68696670209, 3, [(2, 18), (271, 1), (967, 1)]),
   (68699160577, 5, [(2, 17), (3, 2), (58237, 1)]),
   (68700209153, 3, [(2, 17), (67, 1), (7823, 1)]),
   (68700733441, 11, [(2, 17), (3, 1), (5, 1), (83, 1), (421, 1)]),
   (68701126657, 5, [(2, 19), (3, 1), (31, 1), (1409, 1)]),
   (68702568449, 3, [(2, 17), (263, 1), (1993, 1)]),
   (68703748097, 3, [(2, 20), (65521, 1)]),
   (68705320961, 11, [(2, 19), (5, 1), (26209, 1)]),
   (68706631681, 11, [(2, 18), (3, 1), (5, 1), (101, 1), (173, 1)]),
   (68707680257, 3, [(2, 18), (349, 1), (751, 1)]),
   (68709253121, 3, [(2, 18), (5, 1), (19, 1), (31, 1), (89, 1)]),
   (68710039553, 3, [(2, 20), (7, 1), (11, 1), (23, 1), (37, 1)]),
   (68711350273, 7, [(2, 18), (3, 1), (41, 1), (2131, 1)]),
   (68712005633, 3, [(2, 17), (524231, 1)]),
   (68712923137, 10, [(2, 18), (3, 1), (11, 1), (13, 2), (47, 1)]),
   (68718428161, 7, [(2, 20), (3, 1), (5, 1), (17, 1), (257, 1)]),
   (68719230977, 3, [(2, 14), (11, 1), (593, 1), (643, 1)]),
   (68719484929, 11, [(2, 13), (3, 1), (2796203, 1)]),
   (68724326401, 7, [(2, 17), (3, 1), (5, 2), (6991, 1)]),
   (68724719617, 13, [(2, 20), (3, 1), (7, 1), (3121, 1)]),
   (68729307137, 3, [(2, 17), (7, 1), (173, 1), (433, 1)]),
   (68730093569, 3, [(2, 17), (524369, 1)]),
   (68731273217, 3, [(2, 18), (29, 1), (9041, 1)]),
   (68735598593, 3, [(2, 17), (524411, 1)]),
   (68737957889, 3, [(2, 17), (524429, 1)]),
   (68738482177, 5, [(2, 17), (3, 1), (7, 1), (13, 1), (17, 1), (113, 1)]),
   (68741234689, 11, [(2, 18), (3, 1), (7, 1), (12487, 1)]),
   (68743069697, 3, [(2, 19), (7, 1), (18731, 1)]),
   (68744380417, 5, [(2, 18), (3, 1), (61, 1), (1433, 1)]),
   (68745166849, 22, [(2, 19), (3, 2), (17, 1), (857, 1)]),
   (68745953281, 13, [(2, 18), (3, 1), (5, 1), (17483, 1)]),
   (68747001857, 3, [(2, 18), (13, 1), (20173, 1)]),
   (68749885441, 11, [(2, 20), (3, 2), (5, 1), (31, 1), (47, 1)]),
   (68752637953, 7, [(2, 17), (3, 1), (53, 1), (3299, 1)]),
   (68754604033, 5, [(2, 19), (3, 4), (1619, 1)]),
   (68754866177, 3, [(2, 18), (353, 1), (743, 1)]),
   (68754997249, 23, [(2, 17), (3, 1), (7, 1), (24979, 1)]),
   (68756176897, 13, [(2, 20), (3, 1), (11, 1), (1987, 1)]),
   (68756439041, 3, [(2, 18), (5, 1), (52457, 1)]),
   (68757749761, 17, [(2, 19), (3, 1), (5, 1), (7, 1), (1249, 1)]),
   (68758536193, 5, [(2, 18), (3, 1), (17, 1), (37, 1), (139, 1)]),
   (68760371201, 3, [(2, 20), (5, 2), (43, 1), (61, 1)]),
   (70936234049, 3, [(2, 6), (71, 1), (127, 1), (122921, 1)]),
   (109951162771, 2, [(2, 1), (3, 1), (5, 1), (59, 1), (307, 1), (202343, 1)]),
   (137438691329, 3, [(2, 18), (524287, 1)]),
   (137438822401, 14, [(2, 17), (3, 1), (5, 2), (11, 1), (31, 1), (41, 1)]),
   (137438953481, 3, [(2, 3), (5, 1), (137, 1), (953, 1), (26317, 1)]),
   (137439010817, 3, [(2, 13), (113, 1), (148471, 1)]),
   (274862964737, 3, [(2, 18), (367, 1), (2857, 1)]),
   (274864275457, 5, [(2, 20), (3, 1), (23, 1), (29, 1), (131, 1)]),
   (274868207617, 7, [(2, 18), (3, 1), (83, 1), (4211, 1)]),
   (274870435841, 3, [(2, 17), (5, 1), (7, 1), (11, 1), (13, 1), (419, 1)]),
   (274870566913, 5, [(2, 20), (3, 1), (59, 1), (1481, 1)]),
   (274872598529, 3, [(2, 16), (11, 2), (17, 1), (2039, 1)]),
   (274872795137, 3, [(2, 17), (733, 1), (2861, 1)]),
   (274873122817, 5, [(2, 16), (3, 1), (19, 1), (73583, 1)]),
   (274873188353, 3, [(2, 19), (7, 1), (74897, 1)]),
   (274873778177, 3, [(2, 16), (29, 1), (144629, 1)]),
   (274874695681, 21, [(2, 16), (3, 1), (5, 1), (13, 1), (137, 1), (157, 1)]),
   (274876334081, 3, [(2, 19), (5, 1), (23, 1), (47, 1), (97, 1)]),
   (274877816833, 5, [(2, 13), (3, 2), (29, 1), (59, 1), (2179, 1)]),
   (274878136321, 14, [(2, 15), (3, 1), (5, 1), (79, 1), (7079, 1)]),
   (274879414273, 10, [(2, 16), (3, 1), (47, 1), (151, 1), (197, 1)]),
   (274880987137, 10, [(2, 16), (3, 2), (7, 2), (9511, 1)]),
   (274881052673, 3, [(2, 20), (262147, 1)]),
   (274882035713, 3, [(2, 16), (53, 1), (79139, 1)]),
   (274882428929, 3, [(2, 16), (541, 1), (7753, 1)]),
   (274882756609, 13, [(2, 17), (3, 2), (233021, 1)]),
   (274883215361, 3, [(2, 16), (5, 1), (13, 1), (173, 1), (373, 1)]),
   (274883411969, 3, [(2, 18), (11, 1), (95327, 1)]),
   (274883543041, 29, [(2, 17), (3, 1), (5, 1), (139813, 1)]),
   (274883739649, 19, [(2, 16), (3, 1), (7, 1), (17, 1), (31, 1), (379, 1)]),
   (274885378049, 3, [(2, 17), (23, 1), (91183, 1)]),
   (274886295553, 5, [(2, 23), (3, 2), (11, 1), (331, 1)]),
   (274886950913, 3, [(2, 17), (7, 1), (299603, 1)]),
   (274888261633, 5, [(2, 17), (3, 1), (699077, 1)]),
   (274894422017, 3, [(2, 18), (23, 1), (127, 1), (359, 1)]),
   (366503875949, 2, [(2, 2), (7, 1), (139, 1), (94168519, 1)]),
   (549755731969, 7, [(2, 14), (3, 1), (641, 1), (17449, 1)]),
   (549755904001, 11, [(2, 13), (3, 1), (5, 3), (67, 1), (2671, 1)]),
   (1099498258433, 3, [(2, 18), (7, 2), (85597, 1)]),
   (1099499175937, 20, [(2, 17), (3, 2), (7, 1), (47, 1), (2833, 1)]),
   (1099499569153, 5, [(2, 19), (3, 1), (211, 1), (3313, 1)]),
   (1099500617729, 3, [(2, 19), (2097131, 1)]),
   (1099502518273, 5, [(2, 16), (3, 1), (41, 1), (136399, 1)]),
   (1099502714881, 11, [(2, 19), (3, 2), (5, 1), (29, 1), (1607, 1)]),
   (1099503370241, 3, [(2, 17), (5, 1), (11, 1), (152519, 1)]),
   (1099503894529, 7, [(2, 17), (3, 3), (13, 1), (23899, 1)]),
   (1099504549889, 3, [(2, 18), (4194277, 1)]),
   (1099506515969, 6, [(2, 17), (7, 1), (29, 1), (31, 2), (43, 1)]),
   (1099507695617, 5, [(2, 18), (11, 1), (593, 1), (643, 1)]),
   (1099510054913, 3, [(2, 19), (773, 1), (2713, 1)]),
   (1099511922689, 3, [(2, 15), (41, 2), (19961, 1)]),
   (1099512938497, 10, [(2, 18), (3, 1), (7, 1), (199729, 1)]),
   (1099514314753, 11, [(2, 16), (3, 1), (7, 2), (61, 1), (1871, 1)]),
   (1099515691009, 13, [(2, 17), (3, 2), (7, 1), (133153, 1)]),
   (1099516280833, 5, [(2, 16), (3, 4), (207127, 1)]),
   (1099516542977, 3, [(2, 16), (16777291, 1)]),
   (1099516870657, 10, [(2, 20), (3, 2), (263, 1), (443, 1)]),
   (1099518246913, 10, [(2, 16), (3, 1), (17, 2), (37, 1), (523, 1)]),
   (1099520606209, 17, [(2, 16), (3, 1), (43, 1), (130057, 1)]),
   (1099521458177, 3, [(2, 17), (8388683, 1)]),
   (1099522375681, 13, [(2, 18), (3, 1), (5, 1), (19, 1), (14717, 1)]),
   (1099523555329, 7, [(2, 17), (3, 1), (11, 1), (233, 1), (1091, 1)]),
   (2199023255579, 2, [(2, 1), (277, 1), (3969356057, 1)]),
   (2932031007421, 6, [(2, 2), (3, 1), (5, 1), (48867183457, 1)]),
   (4398046511191, 3, [(2, 1), (3, 1), (5, 1), (23, 1), (6373980451, 1)]),
   (8796090597377, 5, [(2, 16), (19, 1), (7064089, 1)]),
   (8796092792833, 7, [(2, 15), (3, 2), (4813, 1), (6197, 1)]),
   (8796092858369, 3, [(2, 15), (71, 1), (3780781, 1)]),
   (8796093349889, 6, [(2, 16), (13, 1), (167, 1), (211, 1), (293, 1)]),
   (35184290562049, 11, [(2, 18), (3, 1), (44739139, 1)]),
   (35184297639937, 7, [(2, 20), (3, 1), (19, 1), (588673, 1)]),
   (35184301047809, 3, [(2, 18), (11, 1), (12201587, 1)]),
   (35184306290689, 14, [(2, 18), (3, 2), (41, 1), (47, 1), (71, 1), (109, 1)]),
   (35184307077121, 17, [(2, 21), (3, 1), (5, 1), (1118479, 1)]),
   (35184314941441, 17, [(2, 19), (3, 1), (5, 1), (7, 1), (29, 1), (22039, 1)]),
   (35184316776449, 3, [(2, 18), (7, 2), (2739133, 1)]),
   (35184318087169, 7, [(2, 19), (3, 2), (211, 1), (35339, 1)]),
   (35184320708609, 3, [(2, 20), (33554383, 1)]),
   (35184329097217, 5, [(2, 20), (3, 1), (13, 1), (860369, 1)]),
   (35184330145793, 3, [(2, 23), (29, 1), (61, 1), (2371, 1)]),
   (35184333684737, 3, [(2, 17), (12941, 1), (20743, 1)]),
   (35184337354753, 5, [(2, 17), (3, 1), (59, 1), (1516583, 1)]),
   (35184339320833, 5, [(2, 18), (3, 2), (13, 2), (79, 1), (1117, 1)]),
   (35184343908353, 3, [(2, 17), (41, 1), (1279, 1), (5119, 1)]),
   (35184345088001, 3, [(2, 18), (5, 3), (59, 1), (18199, 1)]),
   (35184346267649, 3, [(2, 17), (37, 1), (7255007, 1)]),
   (35184350330881, 7, [(2, 18), (3, 1), (5, 1), (8947843, 1)]),
   (35184351313921, 11, [(2, 16), (3, 1), (5, 1), (35791373, 1)]),
   (35184351772673, 3, [(2, 17), (53, 1), (5064817, 1)]),
   (35184353083393, 7, [(2, 17), (3, 1), (89478437, 1)]),
   (35184354459649, 7, [(2, 16), (3, 1), (83, 1), (397, 1), (5431, 1)]),
   (35184355115009, 3, [(2, 16), (11, 1), (97, 1), (503159, 1)]),
   (35184355704833, 3, [(2, 17), (268435331, 1)]),
   (35184357081089, 3, [(2, 16), (536870683, 1)]),
   (35184358850561, 3, [(2, 17), (5, 1), (17, 1), (31, 1), (101873, 1)]),
   (35184361799681, 3, [(2, 16), (5, 1), (971, 1), (110581, 1)]),
   (35184362192897, 3, [(2, 16), (7, 1), (17, 1), (23, 1), (53, 1), (3701, 1)]),
   (35184362979329, 3, [(2, 16), (5479, 1), (97987, 1)]),
   (35184363569153, 5, [(2, 17), (7, 1), (38347913, 1)]),
   (35184365076481, 7, [(2, 16), (3, 1), (5, 1), (137, 1), (261251, 1)]),
   (35184365273089, 11, [(2, 19), (3, 3), (2485513, 1)]),
   (35184366911489, 3, [(2, 16), (8389, 1), (63997, 1)]),
   (35184367828993, 7, [(2, 16), (3, 1), (97, 1), (1844917, 1)]),
   (35184368025601, 13, [(2, 17), (3, 1), (5, 2), (3579139, 1)]),
   (35184368877569, 3, [(2, 16), (17, 1), (1423, 1), (22193, 1)]),
   (35184372121601, 6, [(2, 15), (5, 2), (13, 1), (41, 1), (61, 1), (1321, 1)]),
   (35184372744193, 5, [(2, 17), (3, 1), (7, 1), (23, 1), (555767, 1)]),
   (35184373006337, 3, [(2, 17), (268435463, 1)]),
   (35184373989377, 3, [(2, 16), (179, 1), (1487, 1), (2017, 1)]),
   (35184376545281, 3, [(2, 18), (5, 1), (26843549, 1)]),
   (35184377331713, 3, [(2, 20), (7, 1), (19, 1), (252289, 1)]),
   (35184378511361, 3, [(2, 17), (5, 1), (13, 1), (4129777, 1)]),
   (35184379035649, 11, [(2, 17), (3, 1), (89478503, 1)]),
   (35184380870657, 3, [(2, 17), (268435523, 1)]),
   (35184382967809, 17, [(2, 17), (3, 5), (857, 1), (1289, 1)]),
   (35184383229953, 3, [(2, 17), (11, 1), (31, 1), (43, 1), (18307, 1)]),
   (35184383754241, 26, [(2, 17), (3, 1), (5, 1), (7, 1), (59, 1), (43331, 1)]),
   (35184385196033, 3, [(2, 19), (1129, 1), (59441, 1)]),
   (35184386899969, 7, [(2, 17), (3, 1), (41, 1), (97, 1), (149, 1), (151, 1)]),
   (35184388734977, 3, [(2, 17), (13, 1), (20648891, 1)]),
   (35184394240001, 3, [(2, 17), (5, 4), (429497, 1)]),
   (35184398958593, 3, [(2, 17), (13, 1), (17, 1), (1214641, 1)]),
   (35184399351809, 3, [(2, 21), (7, 1), (71, 1), (33757, 1)]),
   (35184404070401, 7, [(2, 19), (5, 2), (13, 1), (206489, 1)]),
   (35184410361857, 5, [(2, 19), (7, 1), (89, 1), (107719, 1)]),
   (35184411279361, 13, [(2, 17), (3, 3), (5, 1), (7, 1), (284059, 1)]),
   (35184414031873, 5, [(2, 23), (3, 1), (7, 1), (199729, 1)]),
   (35184415080449, 3, [(2, 20), (33554473, 1)]),
   (35184415866881, 6, [(2, 18), (5, 1), (7, 1), (3834797, 1)]),
   (35184423731201, 3, [(2, 18), (5, 2), (443, 1), (12119, 1)]),
   (35184430022657, 3, [(2, 18), (23, 1), (163, 1), (35801, 1)]),
   (35184430809089, 3, [(2, 23), (11, 1), (381301, 1)]),
   (35184436314113, 3, [(2, 18), (134217973, 1)]),
   (35184440246273, 3, [(2, 20), (797, 1), (42101, 1)]),
   (35184440770561, 14, [(2, 19), (3, 2), (5, 1), (193, 1), (7727, 1)]),
   (35184446537729, 3, [(2, 20), (33554503, 1)]),
   (35184452567041, 13, [(2, 18), (3, 2), (5, 1), (7, 1), (426089, 1)]),
   (35184454402049, 3, [(2, 19), (7, 1), (9587003, 1)]),
   (70368744570881, 3, [(2, 17), (5, 1), (7, 1), (1901, 1), (8069, 1)]),
   (1125899902124033, 3, [(2, 19), (7, 1), (17, 1), (18046081, 1)]),
   (1125899903827969, 11, [(2, 17), (3, 1), (103, 1), (193, 1), (144037, 1)]),
   (1125899904679937, 3, [(2, 16), (45737, 1), (375623, 1)]),
   (1125899908022273, 3, [(2, 17), (73, 1), (307, 1), (383291, 1)]),
   (1125899908612097, 3, [(2, 16), (109, 1), (157613479, 1)]),
   (1125899909398529, 3, [(2, 16), (11, 1), (14479, 1), (107867, 1)]),
   (1125899911168001, 3, [(2, 17), (5, 3), (1447, 1), (47491, 1)]),
   (2251799807131649, 3, [(2, 18), (8589934567, 1)]),
   (2251799810670593, 3, [(2, 17), (7, 1), (13, 1), (227, 1), (821, 1), (1013, 1)]),
   (2251799813554177, 5, [(2, 17), (3, 1), (43691, 1), (131071, 1)]),
   (2251799815520257, 10, [(2, 18), (3, 1), (19, 1), (150700607, 1)]),
   (2251799816568833, 3, [(2, 18), (43, 1), (199765921, 1)]),
   (2251799818928129, 3, [(2, 20), (7, 2), (43826197, 1)]),
   (18014398508138497, 5, [(2, 15), (3, 1), (23, 2), (4987, 1), (69463, 1)]),
   (18014398508400641, 3, [(2, 15), (5, 1), (109951162771, 1)]),
   (18014398510645249, 7, [(2, 14), (3, 1), (366503875949, 1)]),
   (18014398510661633, 3, [(2, 17), (137438953481, 1)]),
   (36028797005856769, 17, [(2, 19), (3, 1), (87383, 1), (262139, 1)]),
   (36028797010444289, 3, [(2, 17), (3511, 1), (78290489, 1)]),
   (36028797013327873, 5, [(2, 17), (3, 1), (13, 1), (163, 1), (5119, 1), (8447, 1)]),
   (36028797014376449, 3, [(2, 17), (43, 1), (67, 1), (95410589, 1)]),
   (36028797017456641, 7, [(2, 16), (3, 1), (5, 1), (53, 1), (691516747, 1)]),
   (36028797018652673, 6, [(2, 14), (13, 1), (17, 1), (9950331473, 1)]),
   (36028797019389953, 3, [(2, 15), (277, 1), (3969356057, 1)]),
   (36028797019488257, 3, [(2, 19), (17, 1), (241, 1), (433, 1), (38737, 1)]),
   (36028797020209153, 7, [(2, 16), (3, 3), (20361326441, 1)]),
   (36028797023420417, 3, [(2, 18), (19, 1), (42379, 1), (170689, 1)]),
   (36028797024206849, 3, [(2, 20), (59, 1), (582368447, 1)]),
   (36028797033644033, 3, [(2, 21), (211, 1), (81421181, 1)]),
   (72057594038321153, 3, [(2, 17), (63727, 1), (8626733, 1)]),
   (288230376147320833, 13, [(2, 16), (3, 1), (89, 2), (421, 1), (499, 1), (881, 1)]),
   (288230376147386369, 3, [(2, 17), (31, 1), (70936234049, 1)]),
   (288230376147582977, 3, [(2, 16), (7333, 1), (599760877, 1)]),
   (288230376154267649, 3, [(2, 16), (1117, 1), (3937373779, 1)]),
   (288230376155185153, 5, [(2, 16), (3, 2), (13, 2), (293, 1), (9868769, 1)]),
   (288230376155250689, 3, [(2, 17), (2199023255579, 1)]),
   (288230376156758017, 7, [(2, 16), (3, 1), (347, 1), (10223, 1), (413267, 1)]),
   (288230376157413377, 3, [(2, 16), (4398046511191, 1)]),
   (288230376158396417, 3, [(2, 17), (3851, 1), (13873, 1), (41161, 1)]),
   (576460752300015617, 3, [(2, 18), (11, 1), (19, 1), (10521642371, 1)]),
   (576460752301391873, 3, [(2, 16), (383, 1), (22966300319, 1)]),
   (576460752301785089, 3, [(2, 16), (17, 1), (281, 1), (1841342479, 1)]),
   (1152921504595968001, 13, [(2, 17), (3, 2), (5, 3), (7818749353, 1)]),
   (1152921504597016577, 3, [(2, 17), (315047, 1), (27919939, 1)]),
   (1152921504598720513, 5, [(2, 18), (3, 1), (571, 1), (2099, 1), (1223179, 1)]),
   (1152921504606584833, 10, [(2, 18), (3, 2), (7, 2), (43, 1), (127, 1), (337, 1), (5419, 1)]),
   (1152921504608747521, 13, [(2, 16), (3, 1), (5, 1), (19, 1), (120739, 1), (511243, 1)]),
   (1152921504614055937, 5, [(2, 17), (3, 1), (2932031007421, 1)])]

set_option maxRecDepth 100000 in
theorem defaultCerts_ok : prattAll [] defaultCerts = true := by decide +kernel

theorem defaultCerts_prime {x : ℕ} (h : defaultCerts.any (fun c => Nat.beq c.1 x) = true) : x.Prime := by
  obtain ⟨c, hc, he⟩ := List.any_eq_true.1 h
  rw [← Nat.eq_of_beq_eq_true he]
  exact prattAll_prime (by simp) defaultCerts_ok c hc

end FastKsw
