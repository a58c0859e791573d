ok   address NoSpaces
ok   address Normal
ok   address ErrChecksum
ok   address ErrInvalidCountryCode
ok   address ErrInvalidCharacter
ok   address TooShort
ok   address TooLong
ok   address Empty
ok   address CyrillicCharacter
ok   address Encode
ok   tree Leaf MarshalTo
ok   tree Leaf Hash
ok   tree Nibbles String
ok   tree KeyToNibbles 1
ok   tree KeyToNibbles 2
ok   tree KeyToNibbles 3
ok   tree Empty
ok   tree PutAndGet
ok   tree InsertionOrderInvariance
ok   beserial Bool false
ok   beserial Bool true
ok   beserial Bool invalid
ok   beserial Uint8
ok   beserial Struct
ok   beserial ByteSlice
ok   beserial Slice
ok   beserial ByteArray
ok   beserial Array
ok   beserial String
ok   beserial Optional_None
ok   beserial Optional_Some
ok   beserial Custom enc
ok   beserial Custom dec
ok   beserial Size Uint8
ok   beserial Size Struct
ok   beserial Size NumberSlice
ok   beserial Size Slice
ok   beserial Size NumberArray
ok   beserial Size Array
ok   beserial Size String
ok   beserial Size Optional_None
ok   beserial Size Optional_Some
ok   wallet SignBasicTx
ok   wallet SignExtendedTx
ok   accounts Pruning
ok   policy BlockReward(1) = 440597534
ok   policy BlockReward(2) = 440597429
ok   policy BlockReward(3) = 440597324
ok   policy BlockReward(1000) = 440492605
ok   policy BlockReward(4999) = 440072823
ok   policy BlockReward(5000) = 440072718
ok   policy BlockReward(5001) = 440072613
ok   policy BlockReward(5002) = 440072508
ok   policy BlockReward(100000) = 430217207
ok   policy BlockReward(10000000) = 40607225
ok   policy BlockReward(48692959) = 4001
ok   policy BlockReward(48692960) = 4000
ok   policy BlockReward(52888984) = 4000
ok   policy BlockReward(52888985) = 0
ok   genesis test: 100 accounts, state hash agrees
ok   genesis main: 1396 accounts, state hash agrees
61 of 61 assertions hold
