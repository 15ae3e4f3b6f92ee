import Mathlib.Data.Real.Basic

/-!
# Coefficients of the Dormand–Prince 8(5,3) method

`src/pynlo/util/ode_solve/dopr853_constants.py`, one definition per literal, as the exact decimal value of the
literal (the code rounds each to the nearest double).
-/

namespace PyNLO.Ode.dc

/-- `dopr853_constants.py:20` -/
noncomputable def c2 : ℝ := 0.526001519587677318785587544488e-1
/-- `dopr853_constants.py:21` -/
noncomputable def c3 : ℝ := 0.789002279381515978178381316732e-1
/-- `dopr853_constants.py:22` -/
noncomputable def c4 : ℝ := 0.118350341907227396726757197510e0
/-- `dopr853_constants.py:23` -/
noncomputable def c5 : ℝ := 0.281649658092772603273242802490e0
/-- `dopr853_constants.py:24` -/
noncomputable def c6 : ℝ := 0.333333333333333333333333333333e0
/-- `dopr853_constants.py:25` -/
noncomputable def c7 : ℝ := 0.25e0
/-- `dopr853_constants.py:26` -/
noncomputable def c8 : ℝ := 0.307692307692307692307692307692e0
/-- `dopr853_constants.py:27` -/
noncomputable def c9 : ℝ := 0.651282051282051282051282051282e0
/-- `dopr853_constants.py:28` -/
noncomputable def c10 : ℝ := 0.6e0
/-- `dopr853_constants.py:29` -/
noncomputable def c11 : ℝ := 0.857142857142857142857142857142e0
/-- `dopr853_constants.py:30` -/
noncomputable def c14 : ℝ := 0.1e0
/-- `dopr853_constants.py:31` -/
noncomputable def c15 : ℝ := 0.2e0
/-- `dopr853_constants.py:32` -/
noncomputable def c16 : ℝ := 0.777777777777777777777777777778e0
/-- `dopr853_constants.py:34` -/
noncomputable def b1 : ℝ := 5.42937341165687622380535766363e-2
/-- `dopr853_constants.py:35` -/
noncomputable def b6 : ℝ := 4.45031289275240888144113950566e0
/-- `dopr853_constants.py:36` -/
noncomputable def b7 : ℝ := 1.89151789931450038304281599044e0
/-- `dopr853_constants.py:37` -/
noncomputable def b8 : ℝ := -5.8012039600105847814672114227e0
/-- `dopr853_constants.py:38` -/
noncomputable def b9 : ℝ := 3.1116436695781989440891606237e-1
/-- `dopr853_constants.py:39` -/
noncomputable def b10 : ℝ := -1.52160949662516078556178806805e-1
/-- `dopr853_constants.py:40` -/
noncomputable def b11 : ℝ := 2.01365400804030348374776537501e-1
/-- `dopr853_constants.py:41` -/
noncomputable def b12 : ℝ := 4.47106157277725905176885569043e-2
/-- `dopr853_constants.py:43` -/
noncomputable def bhh1 : ℝ := 0.244094488188976377952755905512e0
/-- `dopr853_constants.py:44` -/
noncomputable def bhh2 : ℝ := 0.733846688281611857341361741547e0
/-- `dopr853_constants.py:45` -/
noncomputable def bhh3 : ℝ := 0.220588235294117647058823529412e-1
/-- `dopr853_constants.py:47` -/
noncomputable def er1 : ℝ := 0.1312004499419488073250102996e-1
/-- `dopr853_constants.py:48` -/
noncomputable def er6 : ℝ := -0.1225156446376204440720569753e1
/-- `dopr853_constants.py:49` -/
noncomputable def er7 : ℝ := -0.4957589496572501915214079952e0
/-- `dopr853_constants.py:50` -/
noncomputable def er8 : ℝ := 0.1664377182454986536961530415e1
/-- `dopr853_constants.py:51` -/
noncomputable def er9 : ℝ := -0.3503288487499736816886487290e0
/-- `dopr853_constants.py:52` -/
noncomputable def er10 : ℝ := 0.3341791187130174790297318841e0
/-- `dopr853_constants.py:53` -/
noncomputable def er11 : ℝ := 0.8192320648511571246570742613e-1
/-- `dopr853_constants.py:54` -/
noncomputable def er12 : ℝ := -0.2235530786388629525884427845e-1
/-- `dopr853_constants.py:56` -/
noncomputable def a21 : ℝ := 5.26001519587677318785587544488e-2
/-- `dopr853_constants.py:57` -/
noncomputable def a31 : ℝ := 1.97250569845378994544595329183e-2
/-- `dopr853_constants.py:58` -/
noncomputable def a32 : ℝ := 5.91751709536136983633785987549e-2
/-- `dopr853_constants.py:59` -/
noncomputable def a41 : ℝ := 2.95875854768068491816892993775e-2
/-- `dopr853_constants.py:60` -/
noncomputable def a43 : ℝ := 8.87627564304205475450678981324e-2
/-- `dopr853_constants.py:61` -/
noncomputable def a51 : ℝ := 2.41365134159266685502369798665e-1
/-- `dopr853_constants.py:62` -/
noncomputable def a53 : ℝ := -8.84549479328286085344864962717e-1
/-- `dopr853_constants.py:63` -/
noncomputable def a54 : ℝ := 9.24834003261792003115737966543e-1
/-- `dopr853_constants.py:64` -/
noncomputable def a61 : ℝ := 3.7037037037037037037037037037e-2
/-- `dopr853_constants.py:65` -/
noncomputable def a64 : ℝ := 1.70828608729473871279604482173e-1
/-- `dopr853_constants.py:66` -/
noncomputable def a65 : ℝ := 1.25467687566822425016691814123e-1
/-- `dopr853_constants.py:67` -/
noncomputable def a71 : ℝ := 3.7109375e-2
/-- `dopr853_constants.py:68` -/
noncomputable def a74 : ℝ := 1.70252211019544039314978060272e-1
/-- `dopr853_constants.py:69` -/
noncomputable def a75 : ℝ := 6.02165389804559606850219397283e-2
/-- `dopr853_constants.py:70` -/
noncomputable def a76 : ℝ := -1.7578125e-2
/-- `dopr853_constants.py:72` -/
noncomputable def a81 : ℝ := 3.70920001185047927108779319836e-2
/-- `dopr853_constants.py:73` -/
noncomputable def a84 : ℝ := 1.70383925712239993810214054705e-1
/-- `dopr853_constants.py:74` -/
noncomputable def a85 : ℝ := 1.07262030446373284651809199168e-1
/-- `dopr853_constants.py:75` -/
noncomputable def a86 : ℝ := -1.53194377486244017527936158236e-2
/-- `dopr853_constants.py:76` -/
noncomputable def a87 : ℝ := 8.27378916381402288758473766002e-3
/-- `dopr853_constants.py:77` -/
noncomputable def a91 : ℝ := 6.24110958716075717114429577812e-1
/-- `dopr853_constants.py:78` -/
noncomputable def a94 : ℝ := -3.36089262944694129406857109825e0
/-- `dopr853_constants.py:79` -/
noncomputable def a95 : ℝ := -8.68219346841726006818189891453e-1
/-- `dopr853_constants.py:80` -/
noncomputable def a96 : ℝ := 2.75920996994467083049415600797e1
/-- `dopr853_constants.py:81` -/
noncomputable def a97 : ℝ := 2.01540675504778934086186788979e1
/-- `dopr853_constants.py:82` -/
noncomputable def a98 : ℝ := -4.34898841810699588477366255144e1
/-- `dopr853_constants.py:83` -/
noncomputable def a101 : ℝ := 4.77662536438264365890433908527e-1
/-- `dopr853_constants.py:84` -/
noncomputable def a104 : ℝ := -2.48811461997166764192642586468e0
/-- `dopr853_constants.py:85` -/
noncomputable def a105 : ℝ := -5.90290826836842996371446475743e-1
/-- `dopr853_constants.py:86` -/
noncomputable def a106 : ℝ := 2.12300514481811942347288949897e1
/-- `dopr853_constants.py:87` -/
noncomputable def a107 : ℝ := 1.52792336328824235832596922938e1
/-- `dopr853_constants.py:88` -/
noncomputable def a108 : ℝ := -3.32882109689848629194453265587e1
/-- `dopr853_constants.py:89` -/
noncomputable def a109 : ℝ := -2.03312017085086261358222928593e-2
/-- `dopr853_constants.py:91` -/
noncomputable def a111 : ℝ := -9.3714243008598732571704021658e-1
/-- `dopr853_constants.py:92` -/
noncomputable def a114 : ℝ := 5.18637242884406370830023853209e0
/-- `dopr853_constants.py:93` -/
noncomputable def a115 : ℝ := 1.09143734899672957818500254654e0
/-- `dopr853_constants.py:94` -/
noncomputable def a116 : ℝ := -8.14978701074692612513997267357e0
/-- `dopr853_constants.py:95` -/
noncomputable def a117 : ℝ := -1.85200656599969598641566180701e1
/-- `dopr853_constants.py:96` -/
noncomputable def a118 : ℝ := 2.27394870993505042818970056734e1
/-- `dopr853_constants.py:97` -/
noncomputable def a119 : ℝ := 2.49360555267965238987089396762e0
/-- `dopr853_constants.py:98` -/
noncomputable def a1110 : ℝ := -3.0467644718982195003823669022e0
/-- `dopr853_constants.py:99` -/
noncomputable def a121 : ℝ := 2.27331014751653820792359768449e0
/-- `dopr853_constants.py:100` -/
noncomputable def a124 : ℝ := -1.05344954667372501984066689879e1
/-- `dopr853_constants.py:101` -/
noncomputable def a125 : ℝ := -2.00087205822486249909675718444e0
/-- `dopr853_constants.py:102` -/
noncomputable def a126 : ℝ := -1.79589318631187989172765950534e1
/-- `dopr853_constants.py:103` -/
noncomputable def a127 : ℝ := 2.79488845294199600508499808837e1
/-- `dopr853_constants.py:104` -/
noncomputable def a128 : ℝ := -2.85899827713502369474065508674e0
/-- `dopr853_constants.py:105` -/
noncomputable def a129 : ℝ := -8.87285693353062954433549289258e0
/-- `dopr853_constants.py:106` -/
noncomputable def a1210 : ℝ := 1.23605671757943030647266201528e1
/-- `dopr853_constants.py:107` -/
noncomputable def a1211 : ℝ := 6.43392746015763530355970484046e-1
/-- `dopr853_constants.py:109` -/
noncomputable def a141 : ℝ := 5.61675022830479523392909219681e-2
/-- `dopr853_constants.py:110` -/
noncomputable def a147 : ℝ := 2.53500210216624811088794765333e-1
/-- `dopr853_constants.py:111` -/
noncomputable def a148 : ℝ := -2.46239037470802489917441475441e-1
/-- `dopr853_constants.py:112` -/
noncomputable def a149 : ℝ := -1.24191423263816360469010140626e-1
/-- `dopr853_constants.py:113` -/
noncomputable def a1410 : ℝ := 1.5329179827876569731206322685e-1
/-- `dopr853_constants.py:114` -/
noncomputable def a1411 : ℝ := 8.20105229563468988491666602057e-3
/-- `dopr853_constants.py:115` -/
noncomputable def a1412 : ℝ := 7.56789766054569976138603589584e-3
/-- `dopr853_constants.py:116` -/
noncomputable def a1413 : ℝ := -8.298e-3
/-- `dopr853_constants.py:118` -/
noncomputable def a151 : ℝ := 3.18346481635021405060768473261e-2
/-- `dopr853_constants.py:119` -/
noncomputable def a156 : ℝ := 2.83009096723667755288322961402e-2
/-- `dopr853_constants.py:120` -/
noncomputable def a157 : ℝ := 5.35419883074385676223797384372e-2
/-- `dopr853_constants.py:121` -/
noncomputable def a158 : ℝ := -5.49237485713909884646569340306e-2
/-- `dopr853_constants.py:122` -/
noncomputable def a1511 : ℝ := -1.08347328697249322858509316994e-4
/-- `dopr853_constants.py:123` -/
noncomputable def a1512 : ℝ := 3.82571090835658412954920192323e-4
/-- `dopr853_constants.py:124` -/
noncomputable def a1513 : ℝ := -3.40465008687404560802977114492e-4
/-- `dopr853_constants.py:125` -/
noncomputable def a1514 : ℝ := 1.41312443674632500278074618366e-1
/-- `dopr853_constants.py:126` -/
noncomputable def a161 : ℝ := -4.28896301583791923408573538692e-1
/-- `dopr853_constants.py:127` -/
noncomputable def a166 : ℝ := -4.69762141536116384314449447206e0
/-- `dopr853_constants.py:128` -/
noncomputable def a167 : ℝ := 7.68342119606259904184240953878e0
/-- `dopr853_constants.py:129` -/
noncomputable def a168 : ℝ := 4.06898981839711007970213554331e0
/-- `dopr853_constants.py:130` -/
noncomputable def a169 : ℝ := 3.56727187455281109270669543021e-1
/-- `dopr853_constants.py:131` -/
noncomputable def a1613 : ℝ := -1.39902416515901462129418009734e-3
/-- `dopr853_constants.py:132` -/
noncomputable def a1614 : ℝ := 2.9475147891527723389556272149e0
/-- `dopr853_constants.py:133` -/
noncomputable def a1615 : ℝ := -9.15095847217987001081870187138e0
/-- `dopr853_constants.py:135` -/
noncomputable def d41 : ℝ := -0.84289382761090128651353491142e1
/-- `dopr853_constants.py:136` -/
noncomputable def d46 : ℝ := 0.56671495351937776962531783590e0
/-- `dopr853_constants.py:137` -/
noncomputable def d47 : ℝ := -0.30689499459498916912797304727e1
/-- `dopr853_constants.py:138` -/
noncomputable def d48 : ℝ := 0.23846676565120698287728149680e1
/-- `dopr853_constants.py:139` -/
noncomputable def d49 : ℝ := 0.21170345824450282767155149946e1
/-- `dopr853_constants.py:140` -/
noncomputable def d410 : ℝ := -0.87139158377797299206789907490e0
/-- `dopr853_constants.py:141` -/
noncomputable def d411 : ℝ := 0.22404374302607882758541771650e1
/-- `dopr853_constants.py:142` -/
noncomputable def d412 : ℝ := 0.63157877876946881815570249290e0
/-- `dopr853_constants.py:143` -/
noncomputable def d413 : ℝ := -0.88990336451333310820698117400e-1
/-- `dopr853_constants.py:144` -/
noncomputable def d414 : ℝ := 0.18148505520854727256656404962e2
/-- `dopr853_constants.py:145` -/
noncomputable def d415 : ℝ := -0.91946323924783554000451984436e1
/-- `dopr853_constants.py:146` -/
noncomputable def d416 : ℝ := -0.44360363875948939664310572000e1
/-- `dopr853_constants.py:148` -/
noncomputable def d51 : ℝ := 0.10427508642579134603413151009e2
/-- `dopr853_constants.py:149` -/
noncomputable def d56 : ℝ := 0.24228349177525818288430175319e3
/-- `dopr853_constants.py:150` -/
noncomputable def d57 : ℝ := 0.16520045171727028198505394887e3
/-- `dopr853_constants.py:151` -/
noncomputable def d58 : ℝ := -0.37454675472269020279518312152e3
/-- `dopr853_constants.py:152` -/
noncomputable def d59 : ℝ := -0.22113666853125306036270938578e2
/-- `dopr853_constants.py:153` -/
noncomputable def d510 : ℝ := 0.77334326684722638389603898808e1
/-- `dopr853_constants.py:154` -/
noncomputable def d511 : ℝ := -0.30674084731089398182061213626e2
/-- `dopr853_constants.py:155` -/
noncomputable def d512 : ℝ := -0.93321305264302278729567221706e1
/-- `dopr853_constants.py:156` -/
noncomputable def d513 : ℝ := 0.15697238121770843886131091075e2
/-- `dopr853_constants.py:157` -/
noncomputable def d514 : ℝ := -0.31139403219565177677282850411e2
/-- `dopr853_constants.py:158` -/
noncomputable def d515 : ℝ := -0.93529243588444783865713862664e1
/-- `dopr853_constants.py:159` -/
noncomputable def d516 : ℝ := 0.35816841486394083752465898540e2
/-- `dopr853_constants.py:161` -/
noncomputable def d61 : ℝ := 0.19985053242002433820987653617e2
/-- `dopr853_constants.py:162` -/
noncomputable def d66 : ℝ := -0.38703730874935176555105901742e3
/-- `dopr853_constants.py:163` -/
noncomputable def d67 : ℝ := -0.18917813819516756882830838328e3
/-- `dopr853_constants.py:164` -/
noncomputable def d68 : ℝ := 0.52780815920542364900561016686e3
/-- `dopr853_constants.py:165` -/
noncomputable def d69 : ℝ := -0.11573902539959630126141871134e2
/-- `dopr853_constants.py:166` -/
noncomputable def d610 : ℝ := 0.68812326946963000169666922661e1
/-- `dopr853_constants.py:167` -/
noncomputable def d611 : ℝ := -0.10006050966910838403183860980e1
/-- `dopr853_constants.py:168` -/
noncomputable def d612 : ℝ := 0.77771377980534432092869265740e0
/-- `dopr853_constants.py:169` -/
noncomputable def d613 : ℝ := -0.27782057523535084065932004339e1
/-- `dopr853_constants.py:170` -/
noncomputable def d614 : ℝ := -0.60196695231264120758267380846e2
/-- `dopr853_constants.py:171` -/
noncomputable def d615 : ℝ := 0.84320405506677161018159903784e2
/-- `dopr853_constants.py:172` -/
noncomputable def d616 : ℝ := 0.11992291136182789328035130030e2
/-- `dopr853_constants.py:174` -/
noncomputable def d71 : ℝ := -0.25693933462703749003312586129e2
/-- `dopr853_constants.py:175` -/
noncomputable def d76 : ℝ := -0.15418974869023643374053993627e3
/-- `dopr853_constants.py:176` -/
noncomputable def d77 : ℝ := -0.23152937917604549567536039109e3
/-- `dopr853_constants.py:177` -/
noncomputable def d78 : ℝ := 0.35763911791061412378285349910e3
/-- `dopr853_constants.py:178` -/
noncomputable def d79 : ℝ := 0.93405324183624310003907691704e2
/-- `dopr853_constants.py:179` -/
noncomputable def d710 : ℝ := -0.37458323136451633156875139351e2
/-- `dopr853_constants.py:180` -/
noncomputable def d711 : ℝ := 0.10409964950896230045147246184e3
/-- `dopr853_constants.py:181` -/
noncomputable def d712 : ℝ := 0.29840293426660503123344363579e2
/-- `dopr853_constants.py:182` -/
noncomputable def d713 : ℝ := -0.43533456590011143754432175058e2
/-- `dopr853_constants.py:183` -/
noncomputable def d714 : ℝ := 0.96324553959188282948394950600e2
/-- `dopr853_constants.py:184` -/
noncomputable def d715 : ℝ := -0.39177261675615439165231486172e2
/-- `dopr853_constants.py:185` -/
noncomputable def d716 : ℝ := -0.14972683625798562581422125276e3

end PyNLO.Ode.dc
