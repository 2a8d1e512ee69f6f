.lake/
/lean/.lake/
build/
