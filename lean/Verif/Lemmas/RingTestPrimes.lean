import Verif.Lemmas.Pratt

/-!
# Certificates of primality of the moduli of `ring/ring_test_params.go`

The format is that of `Lemmas/DefaultPrimes`.
-/

namespace FastKsw

def ringTestCerts : List (ℕ × ℕ × List (ℕ × ℕ)) :=
  [(18341, 3, [(2, 2), (5, 1), (7, 1), (131, 1)]),
   (18793, 5, [(2, 3), (3, 4), (29, 1)]),
   (18803, 5, [(2, 1), (7, 1), (17, 1), (79, 1)]),
   (19013, 2, [(2, 2), (7, 2), (97, 1)]),
   (19301, 2, [(2, 2), (5, 2), (193, 1)]),
   (20959, 7, [(2, 1), (3, 1), (7, 1), (499, 1)]),
   (21019, 2, [(2, 1), (3, 1), (31, 1), (113, 1)]),
   (21067, 2, [(2, 1), (3, 1), (3511, 1)]),
   (22111, 6, [(2, 1), (3, 1), (5, 1), (11, 1), (67, 1)]),
   (22409, 3, [(2, 3), (2801, 1)]),
   (23689, 11, [(2, 3), (3, 2), (7, 1), (47, 1)]),
   (24049, 19, [(2, 4), (3, 2), (167, 1)]),
   (25577, 3, [(2, 3), (23, 1), (139, 1)]),
   (29959, 6, [(2, 1), (3, 1), (4993, 1)]),
   (36683, 2, [(2, 1), (18341, 1)]),
   (38149, 6, [(2, 2), (3, 1), (11, 1), (17, 2)]),
   (39569, 3, [(2, 4), (2473, 1)]),
   (40063, 3, [(2, 1), (3, 1), (11, 1), (607, 1)]),
   (41621, 3, [(2, 2), (5, 1), (2081, 1)]),
   (43691, 6, [(2, 1), (5, 1), (17, 1), (257, 1)]),
   (44819, 2, [(2, 1), (22409, 1)]),
   (52639, 3, [(2, 1), (3, 1), (31, 1), (283, 1)]),
   (53773, 2, [(2, 2), (3, 1), (4481, 1)]),
   (61681, 29, [(2, 4), (3, 1), (5, 1), (257, 1)]),
   (62467, 3, [(2, 1), (3, 1), (29, 1), (359, 1)]),
   (67751, 13, [(2, 1), (5, 3), (271, 1)]),
   (83243, 2, [(2, 1), (41621, 1)]),
   (92951, 11, [(2, 1), (5, 2), (11, 1), (13, 2)]),
   (94079, 13, [(2, 1), (17, 1), (2767, 1)]),
   (96581, 2, [(2, 2), (5, 1), (11, 1), (439, 1)]),
   (105251, 2, [(2, 1), (5, 3), (421, 1)]),
   (112759, 3, [(2, 1), (3, 1), (18793, 1)]),
   (122921, 3, [(2, 3), (5, 1), (7, 1), (439, 1)]),
   (128341, 2, [(2, 2), (3, 2), (5, 1), (23, 1), (31, 1)]),
   (148829, 2, [(2, 2), (29, 1), (1283, 1)]),
   (156217, 5, [(2, 3), (3, 1), (23, 1), (283, 1)]),
   (174763, 17, [(2, 1), (3, 2), (7, 1), (19, 1), (73, 1)]),
   (188159, 11, [(2, 1), (94079, 1)]),
   (191801, 3, [(2, 3), (5, 2), (7, 1), (137, 1)]),
   (194981, 2, [(2, 2), (5, 1), (9749, 1)]),
   (219019, 2, [(2, 1), (3, 1), (173, 1), (211, 1)]),
   (265333, 6, [(2, 2), (3, 1), (22111, 1)]),
   (297659, 2, [(2, 1), (148829, 1)]),
   (332263, 5, [(2, 1), (3, 4), (7, 1), (293, 1)]),
   (349529, 3, [(2, 3), (43691, 1)]),
   (383077, 6, [(2, 2), (3, 3), (3547, 1)]),
   (419429, 2, [(2, 2), (23, 1), (47, 1), (97, 1)]),
   (473611, 2, [(2, 1), (3, 1), (5, 1), (15787, 1)]),
   (478111, 6, [(2, 1), (3, 1), (5, 1), (15937, 1)]),
   (581171, 10, [(2, 1), (5, 1), (89, 1), (653, 1)]),
   (595319, 7, [(2, 1), (297659, 1)]),
   (631507, 2, [(2, 1), (3, 1), (105251, 1)]),
   (699053, 2, [(2, 2), (174763, 1)]),
   (770047, 29, [(2, 1), (3, 1), (128341, 1)]),
   (968809, 22, [(2, 3), (3, 1), (37, 1), (1091, 1)]),
   (1019377, 5, [(2, 4), (3, 2), (7079, 1)]),
   (1034731, 2, [(2, 1), (3, 2), (5, 1), (11497, 1)]),
   (1559849, 3, [(2, 3), (194981, 1)]),
   (1578217, 5, [(2, 3), (3, 1), (19, 1), (3461, 1)]),
   (1763137, 7, [(2, 6), (3, 2), (3061, 1)]),
   (2116397, 2, [(2, 2), (53, 1), (67, 1), (149, 1)]),
   (2383393, 7, [(2, 5), (3, 1), (11, 1), (37, 1), (61, 1)]),
   (2663569, 7, [(2, 4), (3, 2), (53, 1), (349, 1)]),
   (2876297, 3, [(2, 3), (19, 1), (127, 1), (149, 1)]),
   (3322091, 2, [(2, 1), (5, 1), (71, 1), (4679, 1)]),
   (3452893, 5, [(2, 2), (3, 1), (167, 1), (1723, 1)]),
   (4123349, 2, [(2, 2), (23, 1), (44819, 1)]),
   (4721467, 5, [(2, 1), (3, 1), (593, 1), (1327, 1)]),
   (5238913, 5, [(2, 7), (3, 1), (7, 1), (1949, 1)]),
   (5312231, 11, [(2, 1), (5, 1), (7, 1), (11, 1), (6899, 1)]),
   (5408537, 3, [(2, 3), (7, 1), (96581, 1)]),
   (6404779, 2, [(2, 1), (3, 3), (83, 1), (1429, 1)]),
   (8435719, 3, [(2, 1), (3, 3), (156217, 1)]),
   (8807437, 2, [(2, 2), (3, 2), (11, 1), (23, 1), (967, 1)]),
   (9188353, 5, [(2, 10), (3, 2), (997, 1)]),
   (9299621, 3, [(2, 2), (5, 1), (11, 1), (41, 1), (1031, 1)]),
   (23468639, 17, [(2, 1), (557, 1), (21067, 1)]),
   (25965943, 5, [(2, 1), (3, 1), (23, 1), (188159, 1)]),
   (33890827, 5, [(2, 1), (3, 1), (17, 1), (332263, 1)]),
   (36021217, 10, [(2, 5), (3, 1), (7, 1), (11, 2), (443, 1)]),
   (38330209, 13, [(2, 5), (3, 2), (7, 1), (19013, 1)]),
   (38417597, 2, [(2, 2), (7, 1), (857, 1), (1601, 1)]),
   (45331339, 2, [(2, 1), (3, 1), (13, 1), (581171, 1)]),
   (46789471, 3, [(2, 1), (3, 2), (5, 1), (7, 1), (13, 1), (29, 1), (197, 1)]),
   (46937279, 7, [(2, 1), (23468639, 1)]),
   (51778273, 5, [(2, 5), (3, 1), (7, 1), (13, 1), (5927, 1)]),
   (58523573, 2, [(2, 2), (19, 1), (770047, 1)]),
   (75955417, 5, [(2, 3), (3, 1), (151, 1), (20959, 1)]),
   (76857349, 6, [(2, 2), (3, 1), (6404779, 1)]),
   (84357191, 14, [(2, 1), (5, 1), (8435719, 1)]),
   (104194421, 2, [(2, 2), (5, 1), (11, 1), (473611, 1)]),
   (237219337, 5, [(2, 3), (3, 2), (137, 1), (24049, 1)]),
   (261228707, 2, [(2, 1), (89, 1), (439, 1), (3343, 1)]),
   (428158733, 2, [(2, 2), (31, 1), (3452893, 1)]),
   (514812889, 11, [(2, 3), (3, 3), (2383393, 1)]),
   (616318177, 5, [(2, 5), (3, 1), (37, 1), (167, 1), (1039, 1)]),
   (691516747, 5, [(2, 1), (3, 2), (38417597, 1)]),
   (856317467, 2, [(2, 1), (428158733, 1)]),
   (1423316023, 3, [(2, 1), (3, 1), (237219337, 1)]),
   (1592629553, 5, [(2, 4), (19, 1), (5238913, 1)]),
   (2071130921, 6, [(2, 3), (5, 1), (51778273, 1)]),
   (2115462487, 5, [(2, 1), (3, 1), (41, 1), (43, 1), (227, 1), (881, 1)]),
   (3989157833, 3, [(2, 3), (11, 1), (45331339, 1)]),
   (4713876217, 5, [(2, 3), (3, 3), (7, 1), (179, 1), (17417, 1)]),
   (4724002697, 5, [(2, 3), (7, 1), (84357191, 1)]),
   (7479670937, 3, [(2, 3), (233, 1), (409, 1), (9811, 1)]),
   (7818749353, 5, [(2, 3), (3, 2), (23, 1), (4721467, 1)]),
   (18754995781, 6, [(2, 2), (3, 2), (5, 1), (104194421, 1)]),
   (20503713337, 5, [(2, 3), (3, 1), (97, 1), (8807437, 1)]),
   (41103238417, 5, [(2, 4), (3, 1), (856317467, 1)]),
   (59837367497, 3, [(2, 3), (7479670937, 1)]),
   (60662710489, 11, [(2, 3), (3, 1), (613, 1), (4123349, 1)]),
   (77158710721, 41, [(2, 6), (3, 2), (5, 1), (7, 1), (13, 1), (37, 1), (73, 1), (109, 1)]),
   (104715393121, 14, [(2, 5), (3, 2), (5, 1), (13, 1), (19, 1), (37, 1), (73, 1), (109, 1)]),
   (123888634109, 2, [(2, 2), (233, 1), (347, 1), (383077, 1)]),
   (139620524143, 3, [(2, 1), (3, 1), (11, 1), (2115462487, 1)]),
   (517417236551, 13, [(2, 1), (5, 2), (73, 1), (137, 1), (1034731, 1)]),
   (1256584717321, 11, [(2, 3), (3, 1), (5, 1), (29959, 1), (349529, 1)]),
   (1256584717417, 5, [(2, 3), (3, 1), (7, 1), (7479670937, 1)]),
   (1759218604277, 2, [(2, 2), (7, 1), (41, 2), (449, 1), (83243, 1)]),
   (2932031007053, 2, [(2, 2), (7, 1), (219019, 1), (478111, 1)]),
   (4398046510829, 2, [(2, 2), (17, 1), (36683, 1), (1763137, 1)]),
   (4398046510961, 3, [(2, 4), (5, 1), (23, 1), (29, 1), (47, 1), (97, 1), (101, 1), (179, 1)]),
   (8796093021013, 2, [(2, 2), (3, 1), (11, 1), (131, 1), (12697, 1), (40063, 1)]),
   (8796093021103, 11, [(2, 1), (3, 1), (19301, 1), (75955417, 1)]),
   (8796093021109, 2, [(2, 2), (3, 3), (29, 1), (1327, 1), (2116397, 1)]),
   (2305843008863993857, 5, [(2, 19), (3, 2), (17, 1), (227, 1), (4951, 1), (25577, 1)]),
   (2305843008866353153, 5, [(2, 18), (3, 2), (7, 2), (19, 1), (673, 1), (1559849, 1)]),
   (2305843008872120321, 3, [(2, 18), (5, 1), (29, 1), (60662710489, 1)]),
   (2305843008872644609, 17, [(2, 18), (3, 1), (1019377, 1), (2876297, 1)]),
   (2305843008876576769, 11, [(2, 19), (3, 1), (311, 1), (4713876217, 1)]),
   (2305843008885227521, 7, [(2, 18), (3, 2), (5, 1), (21019, 1), (9299621, 1)]),
   (2305843008887848961, 3, [(2, 18), (5, 1), (67751, 1), (25965943, 1)]),
   (2305843008897024001, 17, [(2, 21), (3, 4), (5, 3), (23, 1), (4721467, 1)]),
   (2305843008897810433, 5, [(2, 18), (3, 1), (38149, 1), (76857349, 1)]),
   (2305843008899383297, 13, [(2, 18), (3, 2), (7, 1), (139620524143, 1)]),
   (2305843008900431873, 3, [(2, 18), (8796093021013, 1)]),
   (2305843008924024833, 3, [(2, 18), (8796093021103, 1)]),
   (2305843008925335553, 5, [(2, 20), (3, 3), (29, 1), (1327, 1), (2116397, 1)]),
   (2305843008925597697, 3, [(2, 18), (8796093021109, 1)]),
   (2305843008927694849, 11, [(2, 18), (3, 2), (271, 1), (18803, 1), (191801, 1)]),
   (2305843008934772737, 7, [(2, 21), (3, 2), (11, 1), (13, 1), (97, 1), (8807437, 1)]),
   (2305843008938704897, 5, [(2, 18), (3, 1), (2932031007053, 1)]),
   (2305843008942112769, 3, [(2, 20), (181, 1), (367, 1), (2161, 1), (15319, 1)]),
   (2305843008954433537, 5, [(2, 18), (3, 1), (7, 1), (263, 1), (1592629553, 1)]),
   (2305843008958365697, 5, [(2, 19), (3, 2), (14419, 1), (33890827, 1)]),
   (2305843008959414273, 3, [(2, 19), (107, 1), (41103238417, 1)]),
   (2305843008961773569, 3, [(2, 18), (7, 1), (1256584717321, 1)]),
   (2305843008963870721, 13, [(2, 18), (3, 1), (5, 1), (1427, 1), (4421, 1), (92951, 1)]),
   (2305843008972783617, 3, [(2, 18), (7, 1), (67, 1), (18754995781, 1)]),
   (2305843008993230849, 6, [(2, 18), (17, 1), (517417236551, 1)]),
   (2305843008997949441, 6, [(2, 18), (5, 1), (1759218604277, 1)]),
   (2305843009016037377, 3, [(2, 19), (8543, 1), (514812889, 1)]),
   (2305843009024688129, 3, [(2, 18), (31, 1), (137, 1), (2071130921, 1)]),
   (2305843009036484609, 3, [(2, 20), (97, 1), (113, 1), (337, 1), (595319, 1)]),
   (2305843009045135361, 3, [(2, 18), (5, 1), (443, 1), (4099, 1), (968809, 1)]),
   (2305843009047232513, 5, [(2, 18), (3, 1), (11, 1), (13, 1), (20503713337, 1)]),
   (2305843009059028993, 10, [(2, 19), (3, 1), (7, 2), (112759, 1), (265333, 1)]),
   (2305843009063223297, 3, [(2, 19), (3527, 1), (23689, 1), (52639, 1)]),
   (2305843009069514753, 3, [(2, 19), (4398046510829, 1)]),
   (2305843009071087617, 3, [(2, 23), (13, 1), (587, 1), (36021217, 1)]),
   (2305843009081311233, 3, [(2, 18), (13, 1), (14461, 1), (46789471, 1)]),
   (2305843009090486273, 13, [(2, 19), (3, 2), (11, 1), (19, 1), (61, 1), (38330209, 1)]),
   (2305843009090748417, 3, [(2, 18), (71, 1), (123888634109, 1)]),
   (2305843009097564161, 17, [(2, 18), (3, 2), (5, 1), (7, 2), (3989157833, 1)]),
   (2305843009110409217, 3, [(2, 19), (7, 2), (19, 1), (4724002697, 1)]),
   (2305843009114341377, 3, [(2, 18), (449, 1), (12413, 1), (1578217, 1)]),
   (2305843009117224961, 13, [(2, 22), (3, 1), (5, 1), (53, 1), (691516747, 1)]),
   (2305843009127448577, 5, [(2, 18), (3, 1), (62467, 1), (46937279, 1)]),
   (2305843009131642881, 3, [(2, 18), (5, 1), (37, 1), (59, 1), (149, 1), (5408537, 1)]),
   (2305843009132953601, 7, [(2, 20), (3, 2), (5, 2), (167, 1), (58523573, 1)]),
   (2305843009137934337, 5, [(2, 18), (7, 1), (1256584717417, 1)]),
   (2305843009138720769, 3, [(2, 19), (4398046510961, 1)]),
   (2305843009146585089, 3, [(2, 26), (31, 1), (71, 1), (127, 1), (122921, 1)]),
   (2305843009153400833, 5, [(2, 19), (3, 1), (29, 1), (15217, 1), (3322091, 1)]),
   (2305843009174110209, 3, [(2, 18), (11, 1), (139, 1), (251, 1), (3469, 1), (6607, 1)]),
   (2305843009174634497, 10, [(2, 18), (3, 1), (7, 2), (59837367497, 1)]),
   (2305843009179353089, 7, [(2, 18), (3, 1), (41, 1), (43, 1), (181, 1), (9188353, 1)]),
   (2305843009185120257, 3, [(2, 18), (19, 1), (179, 1), (971, 1), (2663569, 1)]),
   (2305843009186430977, 5, [(2, 21), (3, 1), (23, 1), (61, 1), (261228707, 1)]),
   (2305843009188003841, 11, [(2, 19), (3, 1), (5, 1), (419429, 1), (699053, 1)]),
   (2305843009191936001, 11, [(2, 18), (3, 2), (5, 3), (7818749353, 1)]),
   (2305843009195343873, 3, [(2, 19), (31, 2), (7247, 1), (631507, 1)]),
   (2305843009195868161, 14, [(2, 20), (3, 1), (5, 1), (103, 1), (1423316023, 1)]),
   (2305843009196916737, 3, [(2, 24), (223, 1), (616318177, 1)]),
   (2305843009200586753, 5, [(2, 19), (3, 1), (13, 1), (53, 1), (39569, 1), (53773, 1)]),
   (2305843009202159617, 10, [(2, 20), (3, 1), (7, 1), (104715393121, 1)]),
   (2305843009208713217, 3, [(2, 18), (11, 1), (109, 1), (1381, 1), (5312231, 1)]),
   (2305843009210023937, 5, [(2, 19), (3, 1), (19, 1), (77158710721, 1)]),
   (2305843009211596801, 37, [(2, 21), (3, 1), (5, 2), (11, 1), (17, 1), (31, 1), (41, 1), (61681, 1)])]

set_option maxRecDepth 100000 in
theorem ringTestCerts_ok : prattAll [] ringTestCerts = true := by decide +kernel

theorem ringTestCerts_prime {x : ℕ} (h : ringTestCerts.any (fun c => Nat.beq c.1 x) = true) : x.Prime := by
  obtain ⟨c, hc, he⟩ := List.any_eq_true.1 h
  rw [← Nat.eq_of_beq_eq_true he]
  exact prattAll_prime (by simp) ringTestCerts_ok c hc

end FastKsw
