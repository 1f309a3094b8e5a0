/-!
# Constant tables (generated from the Rust sources)
-/

namespace HashRoll.Tables

set_option maxRecDepth 4000

/-- `GEAR_32` (src/gear_table/gear32.rs:2-35), copied entry by entry. -/
def gear32 : Vector (BitVec 32) 256 := #v[
  0xb088d3a9, 0x5652c7f7, 0x45b28969, 0x6b0a89d5, 0x368f573e, 0x1dc636dc,
  0x207a4c4e, 0xa474b346, 0x3b06a83e, 0x90e78d6c, 0xe1c92df7, 0x8e95053a,
  0x5a2ef4f1, 0xa50fac94, 0x0e7303eb, 0x99b07edc, 0x689d2fb5, 0x00005082,
  0xc4b08306, 0x3eb0678a, 0xf19f87ab, 0xf2129fbf, 0x48114957, 0x00000106,
  0x1fba3780, 0x3bf06fd6, 0x99687e97, 0x79a10673, 0xe4accf9e, 0x2520e71f,
  0x2bd5d3fd, 0x00de4dcd, 0xeaa9311c, 0xdb748eb6, 0xaf579a8d, 0x86a6e5da,
  0xcc2fc30a, 0x355e2afe, 0x2d99c8f4, 0xbade4b4a, 0xf7b51872, 0x3286b658,
  0x0000b688, 0xa115d6e4, 0x484f7e9c, 0xccca7bb7, 0xbf2584a6, 0xade7e813,
  0x00007094, 0x8ae69108, 0xbd776ad7, 0xfb6b001f, 0xc7a474b8, 0xbaf6f116,
  0x09cb1f5b, 0xb0b219e6, 0x00ccbc38, 0xcc849d0a, 0x73a3ef7d, 0xc807d2d3,
  0x7f2ac996, 0xd037a86b, 0xf3f17c66, 0xaca626b0, 0x755a9937, 0x90837ee6,
  0x6ee8ad93, 0x0000d9e1, 0x9e063bb2, 0x07ab77f1, 0xec550255, 0x78fb94a8,
  0xc7510e1b, 0x0000320b, 0x827c3326, 0x14675f0b, 0x267bd3a6, 0xf1916ff9,
  0x86221b7f, 0x9dbecee7, 0xea58f8ca, 0x008d1986, 0x6d38704f, 0xe032cb07,
  0x228d21f6, 0x635cb1bf, 0x4620a173, 0xa7e7dfe3, 0x0c10ca93, 0x2727fee8,
  0xa2df1c6d, 0x4dcdd1ac, 0x000070ff, 0xa2ace87b, 0x9892275a, 0xc2861181,
  0xbb9972a0, 0xef70cd37, 0x00000513, 0xc058b618, 0x09e85085, 0x9197fb3b,
  0x7e1e626d, 0x520c5450, 0xbee17971, 0x6fd9ac32, 0x0023957c, 0xa01c7d7e,
  0xaba2c758, 0x0d1fa0ce, 0x0bb6a58b, 0x4333dd5b, 0xc2fd3b7d, 0xfb418024,
  0x65a56185, 0xf67a02bd, 0x696f11dd, 0x00002022, 0x8cd6be91, 0x695189b6,
  0xee9453b5, 0xd8fc5ea9, 0xab86bf19, 0x0000c6b5, 0x26731017, 0xed2d101b,
  0x3b41ed84, 0x13e62212, 0xa315f5eb, 0x8816c34e, 0xe9395b9c, 0x002ce920,
  0x4283db1d, 0xd77d461a, 0xe2ec17e4, 0xb8e0be40, 0xdea160c4, 0x7eec86c8,
  0x2119ad12, 0xa6ccf46b, 0x2c52cede, 0x2db48711, 0x0000f0d6, 0x3dd5d8c9,
  0x8a1872a2, 0xf282a4c4, 0x8020ec2c, 0x6693b6e0, 0x0000ce19, 0x20cb5735,
  0x762ebf37, 0x207bfe82, 0xd77dc112, 0x9ba78342, 0x217dc513, 0xb27b1a29,
  0x00d5cd98, 0x71e39b80, 0x7e572af0, 0xa2734f2f, 0xbf82c6b5, 0x5c3beac6,
  0xcdc893bb, 0x6d108561, 0x77f8ae30, 0x917c6b81, 0x5b75b699, 0x0000cf6a,
  0xf3c40afa, 0x2063127a, 0x621de622, 0xd188ac1d, 0x107036e2, 0x0000b85f,
  0xf2ef4e4c, 0xd9d6de66, 0xa1fc7955, 0xeb85fd03, 0xbe27502f, 0xe3034251,
  0x441364d3, 0x0082b36c, 0xb1459103, 0x021c069c, 0x2910dfc7, 0x735b353e,
  0xce44312c, 0xbc942e45, 0xf05086a7, 0xfec3b215, 0x00ae1055, 0xf54b4084,
  0x00007fd9, 0xbfbd9ef3, 0xa804302f, 0x39ce4957, 0xffb9e2a4, 0x55b9ad1d,
  0x00008acb, 0x48e2bfc8, 0x8be39841, 0x0e271216, 0xd51096e8, 0x1101ba17,
  0xc22e770f, 0x1689eff2, 0x00a92a19, 0xbc765990, 0xc61441e3, 0x07e13a2c,
  0x92cbe984, 0x8f4ff572, 0x0b9670c0, 0x62955a58, 0x645f83e5, 0x41fce516,
  0xbbda9748, 0x0000aab2, 0x19761b06, 0x8b8f5e83, 0x3e5d1cfd, 0xec5c1e2c,
  0xfaf7e0fe, 0x000000d3, 0xda3f9017, 0x70ff906d, 0x0527d5a7, 0x22d8e773,
  0xc9ab70df, 0xeda4c6dc, 0xecef1f41, 0x0024c2b2, 0x06740d95, 0x1d7a299b,
  0xb3c37cb2, 0xc986e3c7, 0x9fabea36, 0x6da214c5, 0x17a43ed8, 0x6eccec51,
  0xf9cab309, 0x4a5e60c5, 0x00006967, 0x9da51d12, 0x84321e13, 0xfb3d6fb6,
  0x60305eed, 0xcbbf4b14, 0x00004f63, 0x07d5b781, 0xe5a53672, 0x57afb234,
  0x18f346f7, 0x636dc655, 0xcc8bab49, 0x63c7a906]

/-- `GEAR_64` (src/gear_table/gear64.rs:2-259), copied entry by entry. -/
def gear64 : Vector (BitVec 64) 256 := #v[
  0xb088d3a9e840f559, 0x5652c7f739ed20d6, 0x45b28969898972ab,
  0x6b0a89d5b68ec777, 0x368f573e8b7a31b7, 0x1dc636dce936d94b,
  0x207a4c4e5554d5b6, 0xa474b34628239acb, 0x3b06a83e1ca3b912,
  0x90e78d6c2f02baf7, 0xe1c92df7150d9a8a, 0x8e95053a1086d3ad,
  0x5a2ef4f1b83a0722, 0xa50fac949f807fae, 0x0e7303eb80d8d681,
  0x99b07edc1570ad0f, 0x689d2fb555fd3076, 0x00005082119ea468,
  0xc4b08306a88fcc28, 0x3eb0678af6374afd, 0xf19f87ab86ad7436,
  0xf2129fbfbe6bc736, 0x481149575c98a4ed, 0x0000010695477bc5,
  0x1fba37801a9ceacc, 0x3bf06fd663a49b6d, 0x99687e9782e3874b,
  0x79a10673aa50d8e3, 0xe4accf9e6211f420, 0x2520e71f87579071,
  0x2bd5d3fd781a8a9b, 0x00de4dcddd11c873, 0xeaa9311c5a87392f,
  0xdb748eb617bc40ff, 0xaf579a8df620bf6f, 0x86a6e5da1b09c2b1,
  0xcc2fc30ac322a12e, 0x355e2afec1f74267, 0x2d99c8f4c021a47b,
  0xbade4b4a9404cfc3, 0xf7b518721d707d69, 0x3286b6587bf32c20,
  0x0000b68886af270c, 0xa115d6e4db8a9079, 0x484f7e9c97b2e199,
  0xccca7bb75713e301, 0xbf2584a62bb0f160, 0xade7e813625dbcc8,
  0x000070940d87955a, 0x8ae69108139e626f, 0xbd776ad72fde38a2,
  0xfb6b001fc2fcc0cf, 0xc7a474b8e67bc427, 0xbaf6f11610eb5d58,
  0x09cb1f5b6de770d1, 0xb0b219e6977d4c47, 0x00ccbc386ea7ad4a,
  0xcc849d0adf973f01, 0x73a3ef7d016af770, 0xc807d2d386bdbdfe,
  0x7f2ac9966c791730, 0xd037a86bc6c504da, 0xf3f17c661eaa609d,
  0xaca626b04daae687, 0x755a99374f4a5b07, 0x90837ee65b2caede,
  0x6ee8ad93fd560785, 0x0000d9e11053edd8, 0x9e063bb2d21cdbd7,
  0x07ab77f12a01d2b2, 0xec550255e6641b44, 0x78fb94a8449c14c6,
  0xc7510e1bc6c0f5f5, 0x0000320b36e4cae3, 0x827c33262c8b1a2d,
  0x14675f0b48ea4144, 0x267bd3a6498deceb, 0xf1916ff982f5035e,
  0x86221b7ff434fb88, 0x9dbecee7386f49d8, 0xea58f8cac80f8f4a,
  0x008d198692fc64d8, 0x6d38704fbabf9a36, 0xe032cb07d1e7be4c,
  0x228d21f6ad450890, 0x635cb1bfc02589a5, 0x4620a1739ca2ce71,
  0xa7e7dfe3aae5fb58, 0x0c10ca932b3c0deb, 0x2727fee884afed7b,
  0xa2df1c6df9e2ab1f, 0x4dcdd1ac0774f523, 0x000070ffad33e24e,
  0xa2ace87bc5977816, 0x9892275ab4286049, 0xc2861181ddf18959,
  0xbb9972a042483e19, 0xef70cd3766513078, 0x00000513abfc9864,
  0xc058b61858c94083, 0x09e850859725e0de, 0x9197fb3bf83e7d94,
  0x7e1e626d12b64bce, 0x520c54507f7b57d1, 0xbee1797174e22416,
  0x6fd9ac3222e95587, 0x0023957c9adfbf3e, 0xa01c7d7e234bbe15,
  0xaba2c758b8a38cbb, 0x0d1fa0ceec3e2b30, 0x0bb6a58b7e60b991,
  0x4333dd5b9fa26635, 0xc2fd3b7d4001c1a3, 0xfb41802454731127,
  0x65a56185a50d18cb, 0xf67a02bd8784b54f, 0x696f11dd67e65063,
  0x00002022fca814ab, 0x8cd6be912db9d852, 0x695189b6e9ae8a57,
  0xee9453b50ada0c28, 0xd8fc5ea91a78845e, 0xab86bf191a4aa767,
  0x0000c6b5c86415e5, 0x267310178e08a22e, 0xed2d101b078bca25,
  0x3b41ed84b226a8fb, 0x13e622120f28dc06, 0xa315f5ebfb706d26,
  0x8816c34e3301bace, 0xe9395b9cbb71fdae, 0x002ce9202e721648,
  0x4283db1d2bb3c91c, 0xd77d461ad2b1a6a5, 0xe2ec17e46eeb866b,
  0xb8e0be4039fbc47c, 0xdea160c4d5299d04, 0x7eec86c8d28c3634,
  0x2119ad129f98a399, 0xa6ccf46b61a283ef, 0x2c52cedef658c617,
  0x2db4871169acdd83, 0x0000f0d6f39ecbe9, 0x3dd5d8c98d2f9489,
  0x8a1872a22b01f584, 0xf282a4c40e7b3cf2, 0x8020ec2ccb1ba196,
  0x6693b6e09e59e313, 0x0000ce19cc7c83eb, 0x20cb5735f6479c3b,
  0x762ebf3759d75a5b, 0x207bfe823d693975, 0xd77dc112339cd9d5,
  0x9ba7834284627d03, 0x217dc513e95f51e9, 0xb27b1a29fc5e7816,
  0x00d5cd9831bb662d, 0x71e39b806d75734c, 0x7e572af006fb1a23,
  0xa2734f2f6ae91f85, 0xbf82c6b5022cddf2, 0x5c3beac60761a0de,
  0xcdc893bb47416998, 0x6d1085615c187e01, 0x77f8ae30ac277c5d,
  0x917c6b81122a2c91, 0x5b75b699add16967, 0x0000cf6ae79a069b,
  0xf3c40afa60de1104, 0x2063127aa59167c3, 0x621de62269d1894d,
  0xd188ac1de62b4726, 0x107036e2154b673c, 0x0000b85f28553a1d,
  0xf2ef4e4c18236f3d, 0xd9d6de6611b9f602, 0xa1fc7955fb47911c,
  0xeb85fd032f298dbd, 0xbe27502fb3befae1, 0xe3034251c4cd661e,
  0x441364d354071836, 0x0082b36c75f2983e, 0xb145910316fa66f0,
  0x021c069c9847caf7, 0x2910dfc75a4b5221, 0x735b353e1c57a8b5,
  0xce44312ce98ed96c, 0xbc942e4506bdfa65, 0xf05086a71257941b,
  0xfec3b215d351cead, 0x00ae1055e0144202, 0xf54b40846f42e454,
  0x00007fd9c8bcbcc8, 0xbfbd9ef317de9bfe, 0xa804302ff2854e12,
  0x39ce4957a5e5d8d4, 0xffb9e2a45637ba84, 0x55b9ad1d9ea0818b,
  0x00008acbf319178a, 0x48e2bfc8d0fbfb38, 0x8be39841e848b5e8,
  0x0e2712160696a08b, 0xd51096e84b44242a, 0x1101ba176792e13a,
  0xc22e770f4531689d, 0x1689eff272bbc56c, 0x00a92a197f5650ec,
  0xbc765990bda1784e, 0xc61441e392fcb8ae, 0x07e13a2ced31e4a0,
  0x92cbe984234e9d4d, 0x8f4ff572bb7d8ac5, 0x0b9670c00b963bd0,
  0x62955a581a03eb01, 0x645f83e5ea000254, 0x41fce516cd88f299,
  0xbbda9748da7a98cf, 0x0000aab2fe4845fa, 0x19761b069bf56555,
  0x8b8f5e8343b6ad56, 0x3e5d1cfd144821d9, 0xec5c1e2ca2b0cd8f,
  0xfaf7e0fea7fbb57f, 0x000000d3ba12961b, 0xda3f90178401b18e,
  0x70ff906de33a5feb, 0x0527d5a7c06970e7, 0x22d8e773607c13e9,
  0xc9ab70df643c3bac, 0xeda4c6dc8abe12e3, 0xecef1f410033e78a,
  0x0024c2b274ac72cb, 0x06740d954fa900b4, 0x1d7a299b323d6304,
  0xb3c37cb298cbead5, 0xc986e3c76178739b, 0x9fabea364b46f58a,
  0x6da214c5af85cc56, 0x17a43ed8b7a38f84, 0x6eccec511d9adbeb,
  0xf9cab30913335afb, 0x4a5e60c5f415eed2, 0x00006967503672b4,
  0x9da51d121454bb87, 0x84321e13b9bbc816, 0xfb3d6fb6ab2fdd8d,
  0x60305eed8e160a8d, 0xcbbf4b14e9946ce8, 0x00004f63381b10c3,
  0x07d5b7816fcc4e10, 0xe5a536726a6a8155, 0x57afb23447a07fdd,
  0x18f346f7abc9d394, 0x636dc655d61ad33d, 0xcc8bab4939f7f3f6,
  0x63c7a906c1dd187b]

/-- `GO_BUZHASH` (src/buzhash_table.rs:4-37), copied entry by entry. -/
def goBuzhash : Vector (BitVec 32) 256 := #v[
  0x12bd9527, 0xf4140cea, 0x987bd6e1, 0x79079850, 0xafbfd539, 0xd350ce0a,
  0x82973931, 0x9fc32b9c, 0x28003b88, 0xc30c13aa, 0x6b678c34, 0x5844ef1d,
  0xaa552c18, 0x4a77d3e8, 0xd1f62ea0, 0x6599417c, 0xfbe30e7a, 0xf9e2d5ee,
  0xa1fca42e, 0x41548969, 0x116d5b59, 0xaeda1e1a, 0xc5191c17, 0x54b9a3cb,
  0x727e492a, 0x5c432f91, 0x31a50bce, 0xc2696af6, 0x217c8020, 0x1262aefc,
  0xace75924, 0x9876a04f, 0xaf300bc2, 0x3ffce3f6, 0xd6680fb5, 0xd0b1ced8,
  0x6651f842, 0x736fadef, 0xbc2d3429, 0xb03d2904, 0x7e634ba4, 0xdfd87d8c,
  0x7988d63a, 0x4be4d933, 0x6a8d0382, 0x9e132d62, 0x3ee9c95f, 0xfec05b97,
  0x6907ad34, 0x8616cfcc, 0xa6aabf24, 0x8ad1c92e, 0x4f2affc0, 0xb87519db,
  0x6576eaf6, 0x15dbe00a, 0x63e1dd82, 0xa36b6a81, 0xeead99b3, 0xbc6a4309,
  0x3478d1a7, 0x2182bcc0, 0xdd50cfce, 0x7cb25580, 0x73075483, 0x503b7f42,
  0x4cd50d63, 0x3f4d94c9, 0x385fcbb7, 0x90daf16c, 0xece10b8e, 0x11c1cb04,
  0x816a899b, 0x69a29d06, 0xfb090b37, 0xf98ef13c, 0x07653435, 0x9f15dc42,
  0x3b43abdf, 0x1334283f, 0x93f3d9af, 0x0cbdfe71, 0xa788a614, 0x4f54d2f0,
  0xd4374fc7, 0x70557ce7, 0xf741fce8, 0xe4b6f661, 0xc630cb98, 0x387a6366,
  0x72f428fd, 0x539009db, 0xc53e3810, 0x1e1a52e5, 0x7d6816b0, 0x040f9b81,
  0x9c99c9fb, 0x9f3af3d2, 0x774d1061, 0xd5c840ea, 0x8e1480fe, 0x6ee4023c,
  0x2fbda535, 0xd88eff7a, 0xd8632a2a, 0x43c4e024, 0x3ef27971, 0xc72866fd,
  0xe35cc630, 0x46d96220, 0x437a8384, 0xe92caf0c, 0x6290a47e, 0xa7bb9238,
  0x0e1000f9, 0x49e76bdc, 0x3acfb4b8, 0x03582b8e, 0x6ea2de4e, 0x2ec1008d,
  0xfcc8df69, 0x91c2fe0a, 0xb471c7d9, 0x778be812, 0x70d29ad1, 0x76411cbf,
  0xc302e81c, 0x4e445194, 0x22e3aa72, 0xb65762e9, 0xa280db05, 0x827aa70e,
  0x4c531a9d, 0x7a60bf4a, 0x8fd95a44, 0x2289aef0, 0xcd50ddc4, 0x639aae69,
  0x5fe85ed6, 0x4ed724ff, 0x00f04f7d, 0x95a5fcb0, 0x88255d15, 0xa603d2c9,
  0xf6956a5b, 0x53ea7f3e, 0xb570f225, 0x2b3be203, 0xa181e40e, 0xc413cdce,
  0xa7cb1ebb, 0xcf258b1f, 0x516eb016, 0xca204586, 0xd1e69894, 0xe85a73d3,
  0x7db2d382, 0xae73b463, 0x3598d643, 0x5087c864, 0xd91f30b6, 0xe1d4d1e7,
  0x73b3b337, 0xceac1233, 0x8edf7845, 0xa69c45c9, 0xdb5db3ab, 0x28cfade8,
  0xebfa49e7, 0xcbc2a659, 0x59cce971, 0x959a01af, 0x8ee9aae7, 0xfb2f01c6,
  0x5a752836, 0x9ed12981, 0x618d05b6, 0x93ec12b3, 0x4590c779, 0xed1317a2,
  0x03fe5835, 0x7ad3c6f7, 0xd4aad5b5, 0x1a995ed7, 0x247bfaa4, 0x69c2c799,
  0x745fa405, 0xc5b9f239, 0xc3d9aebc, 0xa6f60e0b, 0xdf1e91d7, 0xab8e041c,
  0xee3188c6, 0x37377a9e, 0xc0e1a3bf, 0x19a5a9e4, 0x56cb9556, 0xc4d33d3f,
  0xfb1eb03e, 0xf9557057, 0x1be31d37, 0xd1fa65f1, 0xf518d714, 0x570ac722,
  0xf26cf66a, 0x24794d47, 0x8ba2e402, 0x3f5137e6, 0x35be1453, 0x43350478,
  0x9f05ee88, 0x364cf9cf, 0x39a23ee7, 0xa4db8d49, 0xc2ebb3d2, 0xc6fb99d5,
  0xe014dfb0, 0x7156d425, 0xe090a87a, 0x4cc12f78, 0x1b30f503, 0x06694a7a,
  0x68198cd1, 0x2f8345bd, 0x9d79198e, 0xd871943f, 0x22ef6cf4, 0xe81b1c15,
  0x067b61d8, 0xfc4ea4f5, 0xfe6dab57, 0x1bf744ba, 0xa70b6a25, 0xafe6e412,
  0xc6c1a05c, 0x8ffbe3ce, 0xc4270af1, 0xf3f36373, 0xc4507dd8, 0x5e6fd1e2,
  0x58cd9739, 0x47d3c5b5, 0xe1d5a343, 0x3d4dea4a, 0x893d91ae, 0xbb2a5e2a,
  0x0d57b800, 0x652a7cc9, 0x6a68ccfd, 0x62529f0b, 0xec5f36d6, 0x766cceda,
  0x96ca63ef, 0xa0499838, 0xd9030f59, 0x8185f4d2]

/-- `BORG_BUZHASH_BASE` (src/buzhash_table.rs:42-75), copied entry by entry. -/
def borgBuzhashBase : Vector (BitVec 32) 256 := #v[
  0xe7f831ec, 0xf4026465, 0xafb50cae, 0x6d553c7a, 0xd639efe3, 0x19a7b895,
  0x9aba5b21, 0x5417d6d4, 0x35fd2b84, 0xd1f6a159, 0x3f8e323f, 0xb419551c,
  0xf444cebf, 0x21dc3b80, 0xde8d1e36, 0x84a32436, 0xbeb35a9d, 0xa36f24aa,
  0xa4e60186, 0x98d18ffe, 0x3f042f9e, 0xdb228bcd, 0x096474b7, 0x5c20c2f7,
  0xf9eec872, 0xe8625275, 0xb9d38f80, 0xd48eb716, 0x22a950b4, 0x3cbaaeaa,
  0xc37cddd3, 0x8fea6f6a, 0x1d55d526, 0x7fd6d3b3, 0xdaa072ee, 0x4345ac40,
  0xa077c642, 0x8f2bd45b, 0x28509110, 0x55557613, 0xffc17311, 0xd961ffef,
  0xe532c287, 0xaab95937, 0x46d38365, 0xb065c703, 0xf2d91d0f, 0x92cd4bb0,
  0x4007c712, 0xf35509dd, 0x505b2f69, 0x557ead81, 0x310f4563, 0xbddc5be8,
  0x9760f38c, 0x701e0205, 0x00157244, 0x14912826, 0xdc4ca32b, 0x67b196de,
  0x5db292e8, 0x8c1b406b, 0x01f34075, 0xfa2520f7, 0x73bc37ab, 0x1e18bc30,
  0xfe2c6cb3, 0x20c522d0, 0x5639e3db, 0x942bda35, 0x899af9d1, 0xced44035,
  0x98cc025b, 0x255f5771, 0x70fefa24, 0xe928fa4d, 0x2c030405, 0xb9325590,
  0x20cb63bd, 0xa166305d, 0x80e52c0a, 0xa8fafe2f, 0x1ad13f7d, 0xcfaf3685,
  0x6c83a199, 0x7d26718a, 0xde5dfcd9, 0x79cf7355, 0x8979d7fb, 0xebf8c55e,
  0xebe408e4, 0xcd2affba, 0xe483be6e, 0xe239d6de, 0x5dc1e9e0, 0x0473931f,
  0x851b097c, 0xac5db249, 0x09c0f9f2, 0xd8d2f134, 0xe6f38e41, 0xb1c71bf1,
  0x52b6e4db, 0x07224424, 0x6cf73e85, 0x4f25d89c, 0x782a7d74, 0x10a68dcd,
  0x3a868189, 0xd570d2dc, 0x69630745, 0x9542ed86, 0x331cd6b2, 0xa84b5b28,
  0x07879c9d, 0x38372f64, 0x7185db11, 0x25ba7c83, 0x01061523, 0xe6792f9f,
  0xe5df07d1, 0x4321b47f, 0x7d2469d8, 0x1a3a4f90, 0x48be29a3, 0x669071af,
  0x8ec8dd31, 0x0810bfbf, 0x813a06b4, 0x68538345, 0x65865ddc, 0x43a71b8e,
  0x78619a56, 0x5a34451d, 0x5bdaa3ed, 0x71edc7e9, 0x17ac9a20, 0x78d10bfa,
  0x6c1e7f35, 0xd51839d9, 0x240cbc51, 0x33513cc1, 0xd2b4f795, 0xccaa8186,
  0x0babe682, 0xa33cf164, 0x18c643ea, 0xc1ca105f, 0x9959147a, 0x6d3d94de,
  0x0b654fbe, 0xed902ca0, 0x7d835cb5, 0x99ba1509, 0x6445c922, 0x495e76c2,
  0xf07194bc, 0xa1631d7e, 0x677076a5, 0x89fffe35, 0x1a49bcf3, 0x8e6c948a,
  0x0144c917, 0x8d93aea1, 0x16f87ddf, 0xc8f25d49, 0x1fb11297, 0x27e750cd,
  0x2f422da1, 0xdee89a77, 0x1534c643, 0x457b7b8b, 0xaf172f7a, 0x6b9b09d6,
  0x33573f7f, 0xf14e15c4, 0x526467d5, 0xaf488241, 0x87c3ee0d, 0x33be490c,
  0x95aa6e52, 0x43ec242e, 0xd77de99b, 0xd018334f, 0x5b78d407, 0x498eb66b,
  0xb1279fa8, 0xb38b0ea6, 0x90718376, 0xe325dee2, 0x8e2f2cba, 0xcaa5bdec,
  0x9d652c56, 0xad68f5cb, 0xa77591af, 0x88e37ee8, 0xf8faa221, 0xfcbbbe47,
  0x4f407786, 0xaf393889, 0xf444a1d9, 0x15ae1a2f, 0x40aa7097, 0x6f9486ac,
  0x29d232a3, 0xe47609e9, 0xe8b631ff, 0xba8565f4, 0x11288749, 0x46c9a838,
  0xeb1b7cd8, 0xf516bbb1, 0xfb74fda0, 0x010996e6, 0x4c994653, 0x1d889512,
  0x53dcd9a3, 0xdd074697, 0x1e78e17c, 0x637c98bf, 0x930bb219, 0xcf7f75b0,
  0xcb9355fb, 0x9e623009, 0xe466d82c, 0x28f968d3, 0xfeb385d9, 0x238e026c,
  0xb8ed0560, 0x0c6a027a, 0x3d6fec4b, 0xbb4b2ec2, 0xe715031c, 0xeded011d,
  0xcdc4d3b9, 0xc456fc96, 0xdd0eea20, 0xb3df8ec9, 0x12351993, 0xd9cbb01c,
  0x603147a2, 0xcf37d17d, 0xf7fcd9dc, 0xd8556fa3, 0x104c8131, 0x13152774,
  0xb4715811, 0x6a72c2c9, 0xc5ae37bb, 0xa76ce12a, 0x8150d8f3, 0x2ec29218,
  0xa35f0984, 0x48c0647e, 0x0b5ff98c, 0x71893f7b]

end HashRoll.Tables
